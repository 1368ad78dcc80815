{"id": "C01", "title": "Quorums intersect in an honest node, and stay reachable", "statement": "For a committee of N equal-power authorities, any two sets of authorities that each reach the quorum threshold share at least as many members as the validity threshold, hence more members than the number of faults the committee tolerates (floor((N-1)/3)); a quorum and a validity set always share a member; and the non-faulty authorities alone reach a quorum when at most that many are faulty.", "quantifier": "every committee size N>=1 and every pair of authority sets", "why_tests_cant": "Tests fix a handful of committee sizes (4, 10, ...); off-by-one in the rounding only shows for particular N mod 3.", "anchors": ["crates/types/src/committee.rs: CommitteeInner::calculate_quorum_threshold, calculate_validity_threshold, reached_quorum, reached_validity, quorum_threshold"]}
{"id": "C02", "title": "A certificate can only be assembled from a quorum of distinct committee votes, and its signer list is exactly the voters", "statement": "Assembling a certificate from a set of votes succeeds only if every voter is a committee member and the voters reach the quorum threshold; reading the signers back out of the assembled certificate returns exactly the voters' keys (each once), and the weight computed by a verifier equals the number of voters.", "quantifier": "every committee and every set of votes (including unknown keys, duplicates and too few votes)", "why_tests_cant": "The bitmap of signer positions must invert for every subset of every committee: 2^N subsets.", "anchors": ["crates/types/src/primary/certificate.rs: Certificate::new_internal, signed_by, validate_and_verify"]}
{"id": "C03", "title": "Vote aggregation never double counts and certifies exactly at quorum", "statement": "Feeding any sequence of votes (repeated, for another header, by strangers, badly signed) to the vote aggregator of a header yields a certificate only after valid votes for that header by a quorum of distinct committee members were received; the certificate's signers are all among those valid voters; a repeated authority is always rejected.", "quantifier": "every committee, header and finite sequence of incoming votes", "why_tests_cant": "Adversarial vote sequences are unbounded in length and order.", "anchors": ["crates/consensus/primary/src/aggregators/votes.rs: VotesAggregator::append"]}
{"id": "C04", "title": "Parent aggregation releases a round exactly when a quorum of distinct authors certified it", "statement": "Feeding any sequence of certificates of a round to the parent aggregator: nothing is released before certificates of a quorum of distinct authors arrived; at the arrival that completes the quorum all certificates so far are released together; afterwards each new author's certificate is released alone; no author's certificate is ever released twice and none of a new author is lost.", "quantifier": "every finite sequence of certificates, every committee", "why_tests_cant": "Order and duplication of certificate arrival are adversarial.", "anchors": ["crates/consensus/primary/src/aggregators/certificates.rs: CertificatesAggregator::append, CertificatesAggregatorManager"]}
{"id": "C05", "title": "At most one header per author, round and epoch can be certified", "statement": "If fewer than one third of a committee is faulty and every non-faulty member votes as this code does (one header per author, round and epoch, forever, also across restarts), then two certificates carrying quorums of votes for headers of the same author, round and epoch certify the same header.", "quantifier": "every committee, every set of at most floor((N-1)/3) faulty members, every history of vote requests at every honest member", "why_tests_cant": "The claim is about all combinations of honest histories and faulty behaviours; a test cannot enumerate them.", "anchors": ["crates/consensus/primary/src/network/handler.rs: RequestHandler::vote, vote_inner", "crates/types/src/committee.rs: quorum_threshold"]}
{"id": "C06", "title": "A node never signs two different votes for one author, round and epoch", "statement": "Over any sequence of vote requests with any timing, timeouts and crash/restart points between any two steps, whenever the node sends a vote for a header of author a at (epoch e, round r), every other vote it ever sends for a at (e, r) is for the identical header; a newly decided vote (not a resend of a recorded one) is for a higher (epoch, round) than every vote sent before for that author; the guarding record survives a crash at any point; and a reply taken from the per-author cache is for the header asked about.", "quantifier": "every finite history of vote requests, cancellations, crashes and restarts", "why_tests_cant": "Crash points and interleavings are unbounded; only the invariant linking the persisted vote record to sent votes settles it.", "anchors": ["crates/consensus/primary/src/network/handler.rs: RequestHandler::vote, vote_inner", "crates/storage/src/stores/vote_digest_store.rs"]}
{"id": "C07", "title": "A vote is only given to a fully checked header", "statement": "A node sends a vote for a header only if the requesting peer is the header's author and a committee member, the header is structurally valid for the current epoch, is not at round 0 and not too far ahead of the committed round, its parents are all known certificates of the immediately preceding round and the same epoch, by distinct authors which together reach the quorum threshold, none of them created after the header, and its batches are available.", "quantifier": "every vote request, every stored state", "why_tests_cant": "Each check must hold for all requests, including adversarially malformed ones.", "anchors": ["crates/consensus/primary/src/network/handler.rs: RequestHandler::vote, vote_inner", "crates/types/src/primary/header.rs: Header::validate"]}
{"id": "C08", "title": "An honest proposer never signs two different headers for one round of one epoch", "statement": "Over any history of proposals, parent deliveries, database steps and failures, crashes and restarts in which the last stored header is readable when a proposer starts and parents that move the proposer forward are not older than the round before its last stored proposal, any two headers the proposer hands out for the same epoch and round are identical, the rounds it hands out never decrease within one run, and the next round is never below a header already handed out in the epoch. (Without either assumption a second header can be handed out: shown by two witness runs.)", "quantifier": "every finite history of proposer events with crashes at any point", "why_tests_cant": "Equivocation only appears for particular crash points relative to the durable write.", "anchors": ["crates/consensus/primary/src/proposer.rs: Proposer::new, propose_next_header, repropose_header, store_and_send"]}
{"id": "C09", "title": "Batches of own headers skipped by consensus are proposed again, in order", "statement": "When own headers are reported committed, every digest of an own proposed header whose round is at most the highest committed own round and which was not committed is put back in front of the pending digests, older rounds first; no digest of an uncommitted header is dropped and no header above that round is touched. Over a whole run, every digest whose receipt was acknowledged is waiting, in the header being proposed, in an outstanding header, or in a committed one.", "quantifier": "every set of outstanding proposals and every commit notification", "why_tests_cant": "Combinations of committed/uncommitted rounds are unbounded.", "anchors": ["crates/consensus/primary/src/proposer.rs: Proposer::process_committed_headers"]}
{"id": "C10", "title": "Agreement: honest nodes commit prefixes of one and the same sequence", "statement": "Two honest nodes of a committee that process certificates in any (causally complete) order of their own commit sequences of sub-dags one of which is a prefix of the other: same leaders, same certificates in the same order.", "quantifier": "every DAG without equivocation whose certificates carry a quorum of parents, every pair of delivery orders, any lengths", "why_tests_cant": "The delivery orders are unbounded and adversarial; agreement is a relation between all pairs of executions.", "anchors": ["crates/consensus/primary/src/consensus/bullshark.rs: Bullshark::process_certificate, commit_leader", "crates/consensus/primary/src/consensus/utils.rs: order_leaders, order_dag", "crates/consensus/primary/src/consensus/state.rs: ConsensusState"]}
{"id": "C11", "title": "Integrity: no certificate is committed twice", "statement": "In any execution, over all committed sub-dags emitted by a node, no certificate appears twice; in one sub-dag certificates are distinct, and each author's committed rounds strictly increase from one sub-dag to the next.", "quantifier": "every sequence of incoming certificates", "why_tests_cant": "Double commits would show only for particular DAG shapes around the garbage collection horizon.", "anchors": ["crates/consensus/primary/src/consensus/utils.rs: order_dag", "crates/consensus/primary/src/consensus/state.rs: ConsensusState::update"]}
{"id": "C12", "title": "Causal order: a committed sub-dag is the not yet committed causal history of its leader, in round order, leader last", "statement": "Each emitted sub-dag is exactly the set of certificates reachable from the leader by parent links that are above the garbage collection horizon and above their author's last committed round, ordered by non-decreasing round with the leader at the end, so that every certificate comes after all its parents in the same sub-dag.", "quantifier": "every consensus state and leader", "why_tests_cant": "Graph shapes are unbounded.", "anchors": ["crates/consensus/primary/src/consensus/utils.rs: order_dag", "crates/types/src/primary/output.rs: CommittedSubDag::new"]}
{"id": "C13", "title": "Leaders are committed in strictly increasing even rounds", "statement": "The leader rounds of the successive sub-dags emitted by a node are even, at least 2, and strictly increase; the committed round reported equals the last leader's round and never goes down; a certificate at or below the committed leader round never triggers a commit.", "quantifier": "every sequence of incoming certificates", "why_tests_cant": "Requires an invariant over the whole history.", "anchors": ["crates/consensus/primary/src/consensus/bullshark.rs: process_certificate, commit_leader, order_leaders"]}
{"id": "C14", "title": "Commit timestamps never go backwards", "statement": "The commit timestamps of the successive sub-dags of a node never decrease and each is at least its leader's creation time, whatever the creation times the authors chose.", "quantifier": "every sequence of leaders and creation times", "why_tests_cant": "Author timestamps are adversarial.", "anchors": ["crates/types/src/primary/output.rs: CommittedSubDag::new, commit_timestamp"]}
{"id": "C15", "title": "Leader election is total, deterministic and stays inside the committee", "statement": "For every even round >= 2 the schedule names exactly one leader, which is a committee member; a member not on the bad list that is due keeps its slot; a member on the bad list is replaced by one on the good list; in a full cycle without swaps every member leads exactly once; good and bad lists are disjoint.", "quantifier": "every committee, every round, every score table", "why_tests_cant": "Rounds and score tables are unbounded.", "anchors": ["crates/consensus/primary/src/consensus/leader_schedule.rs: LeaderSchedule::leader, LeaderSwapTable::new, swap"]}
{"id": "C16", "title": "The swap table never demotes more than the configured share of the committee", "statement": "The number of authorities on the bad list is at most max(1, N*pct/100), with every demoted authority scoring strictly below every promoted one.", "quantifier": "every score table and every configured percentage up to 33", "why_tests_cant": "Only particular score distributions break the bound.", "anchors": ["crates/consensus/primary/src/consensus/leader_schedule.rs: LeaderSwapTable::new"]}
{"id": "C17", "title": "Reputation score windows restart at the configured number of sub-dags", "statement": "Reputation scores count one point per committed certificate that supported the previous leader, never decrease within a schedule window, and restart at zero every num_sub_dags_per_schedule leader slots.", "quantifier": "every sequence of committed leaders (including skipped leader rounds) and window lengths", "why_tests_cant": "Which leader rounds are skipped is up to the network.", "anchors": ["crates/consensus/primary/src/consensus/bullshark.rs: resolve_reputation_score", "crates/types/src/primary/reputation.rs"]}
{"id": "C18", "title": "The randomness chain survives restarts and epoch changes and fails closed", "statement": "After a restart at any point, the randomness chain a node continues with equals the one it would have had without the restart; at an epoch start it is the epoch's root; if the stored anchor is missing or does not match the last committed sub-dag, start-up fails instead of continuing on another chain.", "quantifier": "every committed history and every restart point", "why_tests_cant": "Crash points are unbounded.", "anchors": ["crates/consensus/primary/src/consensus/state.rs: resolve_seed_chain_anchor", "crates/types/src/primary/seed_chain.rs", "crates/types/src/primary/output.rs"]}
{"id": "C19", "title": "Bulk-fetched certificates are accepted only under the umbrella of verified signatures", "statement": "When a batch of fetched certificates is accepted, every certificate in it either had its aggregate signature verified against a quorum of the committee or is an ancestor (through parent links inside the batch) of one that had; if any directly checked signature fails nothing of the batch is accepted.", "quantifier": "every batch of certificates and every verification interval", "why_tests_cant": "The shape of the batch is chosen by a remote peer.", "anchors": ["crates/consensus/primary/src/state_sync/cert_validator.rs: process_fetched_certificates_in_parallel"]}
{"id": "C20", "title": "Certificates are accepted in causal order and none is stranded", "statement": "Whatever the order in which verified certificates arrive, a certificate above the garbage collection horizon is handed to consensus only after all of its parents were accepted, never more often than it arrived, none is lost, and as soon as its last missing parent is accepted (or falls below the horizon) it is handed over as well; no arrival order makes the bookkeeping fail.", "quantifier": "every arrival order of certificates and garbage collection events", "why_tests_cant": "Arrival orders are factorial.", "anchors": ["crates/consensus/primary/src/state_sync/cert_manager.rs", "crates/consensus/primary/src/state_sync/pending_cert_manager.rs"]}
{"id": "C21", "title": "A gossiped consensus result is trusted only with more than one third of the committee behind it", "statement": "A node adopts a gossiped consensus block (number, hash) only after valid signatures over exactly that pair from at least floor(N/3)+1 distinct committee members arrived, hence at least one honest member signed it; the tally table stays bounded; the adopted number never decreases.", "quantifier": "every sequence of gossip messages, honest or not", "why_tests_cant": "Gossip is adversarial and unbounded.", "anchors": ["crates/consensus/primary/src/network/handler.rs: process_gossip"]}
{"id": "C22", "title": "The gas penalty is bounded, targeted and monotone", "statement": "The penalty on unused gas is 0 for limits up to 210000 and whenever at least a tenth of the limit is used; it never exceeds the unused gas; for a fixed limit it never increases when more gas is used; using nothing costs exactly the whole unused limit; intermediate arithmetic never overflows.", "quantifier": "every gas limit and gas used (64-bit)", "why_tests_cant": "2^128 input pairs.", "anchors": ["crates/tn-reth/src/evm/utils.rs: calculate_gas_penalty"]}
{"id": "C23", "title": "Transaction fees are conserved", "statement": "What a transaction's sender is charged up front (gas limit times effective price) is exactly split into the refund, the penalty and base fee sent to the fee address, and the tip sent to the block beneficiary; nothing is created or destroyed; the system account is exempt.", "quantifier": "every gas limit, usage, refund, price and base fee", "why_tests_cant": "Rounding or a double count would only be visible for specific numbers.", "anchors": ["crates/tn-reth/src/evm/handler.rs: reimburse_caller, reward_beneficiary"]}
{"id": "C24", "title": "The next base fee moves by at most one eighth and never falls below the floor", "statement": "For every EIP-1559 worker the next epoch's base fee differs from the current one by at most 1/8 (or by 1 when raising a tiny fee, or by one unit more when the configured target is above 2^63 gas), rises only if more than the target was used, falls only if less, equals it at the target, is at least the protocol floor and never overflows; a static worker's fee is the configured one.", "quantifier": "every 64-bit base fee, gas used and gas target", "why_tests_cant": "2^192 inputs including overflow corners.", "anchors": ["crates/types/src/gas_accumulator.rs: compute_next_base_fee, compute_next_base_fee_eip1559"]}
{"id": "C25", "title": "Leader rewards count every committed leader exactly once", "statement": "After any history of committed leaders within an epoch, the per-address reward counts sum to the number of leaders that are current committee members, addresses shared by several validators accumulate their sum, and clearing resets all counts to zero.", "quantifier": "every sequence of leaders, every assignment of reward addresses", "why_tests_cant": "Address sharing and committee changes are combinatorial.", "anchors": ["crates/types/src/gas_accumulator.rs: RewardsCounter"]}
{"id": "C26", "title": "Native token supply changes only by governance mint-claims after the timelock and burns", "statement": "Over any sequence of calls to the token precompile, total supply plus nothing else equals the initial supply plus claimed mints minus burns; only the governance account can mint, claim or burn; a mint can be claimed only after its seven day timelock, at most once and for exactly the amount last proposed; balances created equal supply added; a failing call changes nothing.", "quantifier": "every sequence of calls by every caller, value, timestamp and call kind", "why_tests_cant": "Call histories are unbounded.", "anchors": ["crates/tn-reth/src/evm/tel_precompile/mod.rs", "crates/tn-reth/src/evm/tel_precompile/burnable.rs"]}
{"id": "C27", "title": "Every header has exactly one wire form per epoch and decodes to itself", "statement": "Encoding then decoding a header returns the same header for epochs before and after the seed-signature fork; bytes of one layout are never silently read under the other; two different headers never share a digest input.", "quantifier": "every header", "why_tests_cant": "Unbounded field contents.", "anchors": ["crates/types/src/primary/header.rs"]}
{"id": "C28", "title": "An epoch's closing block is produced exactly once, as the last block of the epoch's last output", "statement": "When executing a consensus output flagged to close the epoch, exactly one of the blocks built for it carries the closing system calls and it is the last one, including when the output has no batches; an output not flagged produces none.", "quantifier": "every number of batches", "why_tests_cant": "Boundary cases for zero, one and many batches.", "anchors": ["crates/types/src/primary/output.rs: ConsensusOutput::close_epoch_for_last_batch", "crates/engine/src/payload_builder.rs: execute_consensus_output"]}
{"id": "C48", "title": "The archive of an epoch holds exactly the saved outputs, also after a crash", "statement": "The archive of an epoch accepts an output only with the next number of that epoch, ignores one it already has and refuses every other; reading a number returns the header and the bytes of exactly the output saved with that number, the latest header is that of the last output, and leaders are counted over exactly the outputs up to the given round. A lookup by digest returns only a record with that digest, and until a crash finds every saved header and batch. After a crash at any point, reopening leaves exactly the outputs of the last completed persist (all of them, no others) and saving goes on from there.", "quantifier": "every record encoding with a 32 bit checksum, pack version, sequence of outputs within the record size limit, and crash at any step of a persist or outside one, with any amount of the unsynced data and index surviving", "why_tests_cant": "Crash points between the four syncs and the surviving prefixes of several files cannot be enumerated.", "anchors": ["crates/storage/src/consensus_pack.rs: Inner::save_consensus_output, persist, trunc_and_heal, files_consistent, open_append_exists, consensus_header_by_number, consensus_header_by_digest, batch, count_leaders, bytes_for_consensus", "crates/storage/src/archive/pack.rs: PackInner::append, read_record, write_value"]}
{"id": "C49", "title": "A restarted node continues the archive where it ends", "statement": "After any crash and restart, the number the node gives to its next consensus output is the one behind the last output in its archive, saving it succeeds, and it becomes the last output; numbers in the archive are consecutive over all epochs. A number that does not advance, a foreign epoch or a gap is refused.", "quantifier": "every history of saves, persists, epoch changes and crashes, every interleaving with the background thread that writes the two slot files, and every content (old, new, torn) of the slot files after the crash", "why_tests_cant": "The slot files and the pack are written by different threads without a common sync; the combinations that survive a crash cannot be enumerated by tests.", "anchors": ["crates/storage/src/consensus.rs: LatestConsensus::new, read_slot, update, persist; ConsensusChain::new, new_epoch, save_consensus_output, persist_current, consensus_header_latest", "crates/state-sync/src/lib.rs: last_consensus_parent", "crates/consensus/executor/src/subscriber.rs: Subscriber::run, save_consensus"]}
{"id": "C50", "title": "Every consensus output is executed exactly once, across crashes and epoch changes", "statement": "At every moment the executed chain is what the first m outputs of the node's archive give: each executed once, in the order of their numbers, in the epoch it belongs to, with the epoch closed exactly at its boundary output. A restart at any moment re-executes exactly what was not durable and then everything the archive holds, and the node goes on. Two nodes with the same archive have chains of which one extends the other.", "quantifier": "every history of committed outputs, deliveries to the engine, executions, partial flushes of the chain, mode changes and epoch closes, and every crash point", "why_tests_cant": "The crash can hit between saving, forwarding, executing and flushing any number of outputs, with the epoch boundary anywhere among them.", "anchors": ["crates/node/src/manager/node/run_epoch.rs: run_epoch, process_output, wait_for_epoch_boundary, check_output_continuity", "crates/node/src/manager/node/start_epoch.rs: replay_missed_consensus", "crates/node/src/manager/node/close_epoch.rs: send_leftover_consensus_output_to_engine", "crates/state-sync/src/lib.rs: get_missing_consensus", "crates/consensus/executor/src/subscriber.rs: Subscriber::run"]}
{"id": "C51", "title": "An accepted epoch record was signed by an honest member of the committee the previous record announced", "statement": "A downloaded epoch record is accepted only if it has the requested epoch, chains to the record before it, its committee is the announced one or a tolerated shrink of it (no repeated member, at least two thirds) and its certificate has a super-quorum of that committee. If at most a third of the announced committee is faulty, some member that is not faulty signed the accepted record; two certified records with the same committee have a common signer that is not faulty.", "quantifier": "every record, certificate, committee, bitmap and anchor, and every signature scheme in which aggregates cannot be forged", "why_tests_cant": "The peer that answers is arbitrary; committees, shrinks, bitmaps and records cannot be enumerated.", "anchors": ["crates/types/src/primary/epoch.rs: EpochRecord::verify_with_cert, committee_compatible, super_quorum", "crates/storage/src/epoch_records.rs: validate_record_against_anchor, validate_downloaded_record"]}
{"id": "C52", "title": "The epoch record store of a correct node holds the true chain of records", "statement": "Whatever peers send, every record in a correct node's store is the record of that epoch, chained to the one before; a certified read returns the true record and never fails with an invalid certificate; the epoch found for a consensus number is the one the number belongs to; the scan for the first uncertified epoch finds exactly the first one.", "quantifier": "every history of epoch closes, vote quorums, downloads of arbitrary data, scans and crashes losing any suffix of the records and any certificates", "why_tests_cant": "Histories interleave local closes, downloads from malicious peers and crashes without bound.", "anchors": ["crates/storage/src/epoch_records.rs: EpochRecordDb::save_record, save, update_finals, certified_record_by_epoch, number_to_epoch, first_missing_historical_cert, get_committee_keys, validate_downloaded_record", "crates/node/src/manager/node/close_epoch.rs: write_epoch_record, build_epoch_record", "crates/state-sync/src/epoch.rs: collect_epoch_records"]}
{"id": "C53", "title": "Votes on an epoch record lead to a certificate and nobody can suppress them", "statement": "A vote is forwarded to the collector only if it is for the node's record of that epoch, by a member of its committee, with a valid signature; once a member's valid vote has arrived, a valid vote of that member has been forwarded, whatever forged or repeated votes came before; memory for seen votes is bounded by 1024 entries. The collector saves a certificate exactly if it reached a quorum and the certificate verifies; if a super-quorum of members (at least one besides the node) votes for its record, it ends with one, whatever the others send.", "quantifier": "every order of votes, forged votes, votes for other records, repeats and up to 25 timeouts, every committee and every set of correct members", "why_tests_cant": "The adversary chooses order and content of the gossip.", "anchors": ["crates/consensus/primary/src/network/handler.rs: process_gossip (EpochVote), epoch_vote_seen, record_epoch_vote", "crates/node/src/manager/epoch_votes.rs: manage_epoch_votes"]}
{"id": "C54", "title": "Importing an epoch's pack from any peer gives the epoch's consensus chain or changes nothing", "statement": "A node that imports the pack of a certified epoch from a peer keeps its own pack unless the whole stream is accepted; then the pack holds exactly the consensus headers of that epoch, in order, each with the batches its headers name, in the order they name them. Two accepted imports give the same headers and batches. Nothing the node held is lost, a complete pack is never touched, and the stream an honest peer exports is accepted in both formats.", "quantifier": "every peer, every stream of records (torn, reordered, repeated, forged, truncated), both formats, every pack the node may hold already", "why_tests_cant": "The peer chooses the whole byte stream; only the certified record of the epoch is trusted.", "anchors": ["crates/storage/src/consensus_pack.rs: Inner::stream_import, verify_epoch_meta, check_header_expectation, iter_to_output, iter_to_output_legacy", "crates/storage/src/consensus.rs: ConsensusChain::stream_import"]}
{"id": "C55", "title": "The next committee is drawn fairly from the validators eligible after the slashes", "statement": "At the end of an epoch the contract is given exactly as many members as it asks for, without repeats, in ascending order, all eligible after incentives and slashes were applied: none that leaves if enough stay, all that stay otherwise. The choice depends only on the pool, the size and the seed. Over the draws of the generator every committee possible under these rules comes out equally often, in particular at least once. If fewer validators are eligible than asked for, or none is asked for, the block fails.", "quantifier": "every pool of validators in every order, every size, every sequence of random draws, every registry contract", "why_tests_cant": "Fairness is a statement about all sequences of draws and all pools; tests fix seeds.", "anchors": ["crates/tn-reth/src/evm/block.rs: assemble_new_committee, shuffle_new_committee, read_committee_eligible_pool, generate_conclude_epoch_calldata, apply_closing_epoch_contract_call"]}
{"id": "C56", "title": "Connection counts, IP blocks and table limits are exact", "statement": "After any sequence of connections, disconnections, penalties, heartbeats, records and committee changes: the node's counts of disconnected and banned peers equal the numbers of records in these states; an IP address is blocked only if two different banned peers were observed at it, and is blocked whenever there are two unless a committee member seen there was forgiven; after a connection closes at most the configured numbers of disconnected and banned records are kept, and those forgotten are the oldest. A dial that takes longer than its time-out is given up at the next heartbeat, and only then.", "quantifier": "every history of calls with any peers, keys, addresses, penalties and times, in every iteration order of the peer map", "why_tests_cant": "The counters are updated in fourteen places; drift only appears after particular sequences of transitions.", "anchors": ["crates/network-libp2p/src/peers/all_peers.rs: handle_status_transition, add_trusted_peer, upsert_peer, prune_disconnected_peers, prune_banned_peers, update_committees", "crates/network-libp2p/src/peers/banned.rs: BannedPeers", "crates/network-libp2p/src/peers/status.rs"]}
{"id": "C57", "title": "A committee member is never penalised or banned by its own score", "statement": "After any history a member of the previous, current or next committee has the maximal score and is neither banned nor about to be banned, whatever penalties were reported against it. A penalty against a member or an operator's peer changes nothing. A new committee takes effect at once, also for peers banned before, and lifts the blocks of their addresses. A member can be refused only because of an address it shares with two banned peers.", "quantifier": "every history of calls; every committee and penalty", "why_tests_cant": "Exemption must hold for every interleaving of discovery, key rotation, committee change and penalty.", "anchors": ["crates/network-libp2p/src/peers/all_peers.rs: exemption, process_penalty, apply_committee_membership, update_committees, apply_membership_if_committee", "crates/network-libp2p/src/peers/peer.rs: apply_penalty, heartbeat", "crates/network-libp2p/src/peers/manager.rs: cache_known_peer"]}
{"id": "C58", "title": "A ban begins at the threshold, lasts for its term, follows the identity and ends", "statement": "A penalty that takes a non-exempt peer's score to the ban threshold bans it: connections are refused, a live connection is dropped, and the score is locked for the configured time. Until then nothing short of forgiveness by operator or committee, or lack of room, lifts the ban: not heartbeats, reconnections, penalties, records of other peers, or a new network key. A new key or a first record of an identity never improves a reputation. The first heartbeat after the lockout at which the score has recovered lifts the ban completely. Between penalties the score of a non-exempt peer follows the decay function exactly.", "quantifier": "every history of calls, every score configuration with minimum at most the ban threshold, every decay function", "why_tests_cant": "Duration and persistence are statements over all later histories.", "anchors": ["crates/network-libp2p/src/peers/score.rs: apply_penalty, update_at, update_score", "crates/network-libp2p/src/peers/peer.rs: heartbeat, ensure_banned, retain_worse_reputation", "crates/network-libp2p/src/peers/all_peers.rs: process_penalty, update_peer_scores, upsert_peer, normalize_carried_status"]}
{"id": "C59", "title": "A reconnection time-out holds, ends on time and is bounded", "statement": "A peer put into time-out is found there at every later call before the configured duration has passed, unless it is removed or at least as many other peers as the cap follow it. A heartbeat releases and reports exactly the peers whose last time-out is over. There are never more than the cap; the one released by an overflow is the oldest and is reported. No call panics. A banned peer is put on the gossip blacklist; a peer on the blacklist is in a time-out, and the end of a ban, of a time-out, or the forgetting of the record takes it off.", "quantifier": "every sequence of insertions, removals and heartbeats with a clock that does not run backwards; every duration and cap", "why_tests_cant": "Set and queue are two structures kept in step by hand; the guarantees quantify over all histories.", "anchors": ["crates/network-libp2p/src/peers/cache.rs: BannedPeerCache", "crates/network-libp2p/src/peers/manager.rs: temporarily_ban, apply_peer_action, unban_temp_banned_peers"]}
{"id": "C60", "title": "A network id stands for one identity, and outsiders cannot change whose", "statement": "At every moment a libp2p id resolves to a BLS identity exactly if that identity's record names it, no two identities share a network key, and no id has both an anonymous record and an identity. A signed record of a BLS key outside the committees changes at most the identity of the peer that sent it and the former key of the signer; relayed records of outsiders change nothing.", "quantifier": "every history of calls; every record, sender and key", "why_tests_cant": "Index and records are two maps updated by eviction, promotion and rotation; agreement must hold after any sequence.", "anchors": ["crates/network-libp2p/src/peers/all_peers.rs: identity_for, upsert_peer, evict, add_trusted_peer, ensure_peer_exists", "crates/network-libp2p/src/peers/manager.rs: add_self_advertised_peer, add_discovered_peer, cache_known_peer", "crates/network-libp2p/src/consensus.rs: peer_record_valid, process_kad_put_request"]}
{"id": "C61", "title": "A built batch takes the pool's offer in order, within the limits, without nonce gaps, and is acceptable", "statement": "For every content of the transaction pool the batch a validator builds is a subsequence of what the pool offers in its order, has at most 30,000,000 gas and 1,000,000 bytes (as the builder measures them), only allowed transaction types, and of every sender the first transactions up to one that does not fit or is not allowed, so nonces have no gaps. A transaction is left out only for such a reason; if all fit, all are taken; a first one that fits is taken. The pool is told exactly the selected senders, with the next nonce and the reduced balance; only transactions of types that are not allowed are deleted. Every validator of the same worker and epoch accepts a non-empty batch exactly if its encoded bytes are within the limit.", "quantifier": "every pool content and order whose transactions' gas limits the pool admits; every epoch, worker, fee, balance function; every validator's decoding of these transactions", "why_tests_cant": "Selection depends on the whole sequence: skipping one transaction affects all later ones of the sender.", "anchors": ["crates/batch-builder/src/batch.rs: build_batch", "crates/tn-reth/src/txn_pool.rs: best_transactions", "crates/batch-validator/src/validator.rs: validate_batch"]}
{"id": "C62", "title": "A forwarded transaction is delivered, judged, or returned; one validator cannot suppress it", "statement": "When a node that is not in the committee hands transactions to the committee's RPC endpoints: every transaction of an admitted batch is, once, delivered, rejected or handed back to the pool; it counts as delivered exactly if a validator accepted it or has it, and as rejected only if two different validators rejected it, or one did and all other usable ones gave no verdict or the time budget ran out. A validator is asked at most once per transaction and never at an endpoint already found unreachable; an unreachable endpoint is not used for 30 seconds. If only one validator rejects a transaction and another usable one accepts it, it is delivered within its budget. At most 64 forwards are alive; only endpoints the dial policy admits are asked. The fallback order is fair and each sender has one owner in the committee.", "quantifier": "every batch, committee, set of advertised endpoints, sequence of answers, budgets and earlier history of the forwarder", "why_tests_cant": "Answers of remote servers are adversarial and arbitrary; the walk keeps state over transactions and batches.", "anchors": ["crates/tn-reth/src/forward.rs: forward_txns, spawn_forward, cached_providers, walk_fallback_chain, expired_walk_outcome, classify_error, classify_server_error, rotated_fallbacks, owning_validator"]}
{"id": "C63", "title": "An advertised RPC endpoint is dialled only if its host is public", "statement": "An IPv4 literal is dialled exactly if it is outside the nine refused networks; an IPv6 literal exactly if it is outside the five refused networks and the IPv4 address it embeds (mapped, compatible, NAT64, 6to4), if any, would be dialled; a name is refused exactly if its last label, whatever the case and trailing dots, is local or localhost. No spelling of a refused address passes by being embedded.", "quantifier": "all 2^32 IPv4 addresses, all 2^128 IPv6 addresses, all host names", "why_tests_cant": "The address space cannot be enumerated; bit masks and embeddings must agree with prefix arithmetic everywhere.", "anchors": ["crates/tn-reth/src/forward.rs: ForwardTargetPolicy::check, check_public_ipv4, check_public_ipv6, embedded_ipv4, check_public_domain"]}
{"id": "C64", "title": "An accepted transaction is not lost inside the node", "statement": "A transaction the pool accepted is at every later moment in the pool, in a batch of this node, with a forwarding or recovery task, or it has been committed, delivered to a validator, rejected by validators, or dropped by the pool - whatever seals fail, batches miss their epoch, forwards are refused or return transactions - provided no forward or recovery is under way when an epoch's tasks are aborted, no batch is being sealed at the moment the left-over batches are read, a forward returns transactions only after its batch was pruned, and the process does not crash. A batch on disk survives a crash and is recovered. In no run, crashes included, does the node hold a transaction nobody handed in.", "quantifier": "every interleaving of submissions, builds, seals, commits, forwards, epoch changes and recoveries; every content of batches", "why_tests_cant": "The transaction moves between five owners in different tasks; a loss needs a particular interleaving of prune, requeue, clear and abort.", "anchors": ["crates/batch-builder/src/lib.rs: spawn_execution_task, run", "crates/consensus/worker/src/worker.rs: seal, disburse_txns", "crates/tn-reth/src/forward.rs: spawn_forward, requeue_one", "crates/node/src/manager/node/close_epoch.rs: orphan_batches, repool_batch_txns", "crates/node/src/manager/node/run_epoch.rs: process_output"]}
{"id": "C65", "title": "The builder proposes one batch at a time and backs off while nobody takes its batches", "statement": "Between two builds lies a result of the first. After a build that removed nothing from the pool the loop does not build again before a new block arrives or the configured delay has passed. After the k-th consecutive refusal no build starts before the configured delay times 2^(k-1), at most 30 seconds, has passed, whatever wakes the loop; after at most the larger of the two, the next wake-up with transactions in the pool starts a build. A batch that went through ends the back-off and is followed at once by the next if transactions are left.", "quantifier": "every history of wake-ups, results, pool states and times; every configured delay and cap", "why_tests_cant": "The gate, the deferral, the interval and the back-off interact through arbitrary wake-up sequences.", "anchors": ["crates/batch-builder/src/lib.rs: run, note_refusal, note_recovery, refusal_backoff_holds"]}
{"id": "C66", "title": "An ExEx never loses a notification silently, and cannot hurt another ExEx", "statement": "What an ExEx has received, followed by what is queued for it, accounts for everything the manager sent to it: in order, nothing invented or repeated, every run of dropped notifications replaced at its place by one Lagged marker carrying its length; only the drops after the last queued item are still to be announced, and their number is what the next marker will carry. An ExEx that never overflowed its channel has received everything. A channel of capacity at least two that was drained delivers the next notification. The queue never exceeds the capacity. What one ExEx does - reading slowly, not at all, or ending - changes nothing for another.", "quantifier": "every channel capacity, every sequence of certificates, outputs, canonical notifications and lag reports, every interleaving with the receives and ends of every ExEx", "why_tests_cant": "Drops depend on the interleaving of non-blocking sends with a slow reader; marker placement must be right for every overflow pattern.", "anchors": ["crates/exex/src/manager.rs: ExExHandle::send, Router::handle, fan_out, handle_canon_commit, resolve_exex_channel_capacity", "crates/exex/src/notification.rs: TnExExNotification"]}
{"id": "C67", "title": "Replay followed by live delivery has no silent hole and no repetition", "statement": "A replay yields the blocks of its range in order and without a hole; if a read fails it yields one error with the number of the block right after the last delivered and then ends for good. The combined stream of replay_and_subscribe(start) yields chains in ascending order, all committed before; between two chains with neither an error nor a Lagged marker between them no block is missing, and none is missing between start and the first chain; without a replay error no block is delivered twice; with start at most one beyond the tip and without any signal the consumer has seen exactly start, start+1, ... once each, and once everything is settled, exactly up to the committed tip.", "quantifier": "every interleaving of commits, announcements, overflows of the broadcast receiver, the manager's handling, other notifications, the subscription, failing database reads and the consumer's polls; every start, tip, capacity and size of outputs", "why_tests_cant": "The overlap of replay and live buffering, two independent lossy queues and the height filter meet only in particular interleavings.", "anchors": ["crates/exex/src/replay.rs: ReplayCore", "crates/exex/src/context.rs: replay_from, replay_and_subscribe, keep_height, dedup_chain_executed", "crates/exex/src/manager.rs: canon_gap, handle_canon_commit", "crates/tn-reth/src/env/execution.rs: persist_executed_output, announce_executed_output", "crates/node/src/manager/node.rs: start (ExEx wiring)"]}
{"id": "C68", "title": "The pruning floor never passes what every ExEx has finished", "statement": "min_finished_height is Some(m) exactly when every registered ExEx has reported and m is the least of their latest reports. So it never exceeds a height some ExEx has durably processed if they report honestly, and there is no floor while one is silent. If each ExEx reports non-decreasing heights, the floor once set is never withdrawn and never decreases.", "quantifier": "every number of ExExes and every history of reports and other events", "why_tests_cant": "The fold's fail-safe must hold for every set of reporters and every order of reports.", "anchors": ["crates/exex/src/manager.rs: Router::handle_event, recompute_min, TnExExManagerHandle::min_finished_height"]}
{"id": "C69", "title": "No input of the ExEx manager is starved and each keeps its order", "statement": "The merged stream yields the items of each of the four sources in their order, each once. Whatever the other sources do, an item with k items of its source before it is yielded within 2(k+1) polls for certificates, 4(k+1) for consensus outputs, 8(k+1) for canonical notifications and events. While all sources are continuously ready, each 8n polls serve them 4n : 2n : n : n times.", "quantifier": "every arrival pattern, every state of the merge, every number of polls", "why_tests_cant": "Starvation is a property of unbounded schedules.", "anchors": ["crates/exex/src/manager.rs: round_robin, merge_sources"]}
{"id": "C70", "title": "A message arrives exactly as sent or as an error, and no peer can make the reader hold more than its limit", "statement": "A message within the limits is decoded as itself by the receiver, who has then read exactly its bytes, whatever follows on the stream; a sequence of messages is read as that sequence. If the stream ends before the last byte, the receiver gets an error, never another message. The outcome depends only on the bytes, not on how they are fragmented, and every read ends. A message over the sender's limit is refused before anything is written. Whoever sends, what is decoded has exactly its declared length, within the receiver's limit; a larger declared length is refused after four bytes; the bytes held never exceed those received nor the worst case for the limit.", "quantifier": "every message, every size limit up to the format's, every fragmentation into reads, every point at which the stream ends, every byte string of a hostile peer", "why_tests_cant": "Fragmentation, truncation point and hostile input are unbounded choices.", "anchors": ["crates/network-libp2p/src/codec.rs: encode_message, decode_message", "crates/network-libp2p/src/sync/frame.rs: SyncFrame, write_frame, read_frame"]}
{"id": "C71", "title": "Packs and certificates are transferred whole, or the requester is told", "statement": "An epoch pack is given to the importer byte for byte: at any time what it got is a beginning of the pack, and it is told the end only after all of it and with nothing lost, however the pack is cut into chunks. Certificates served for a request arrive in order, without repetition, and up to the response cap without omission: the requester gets exactly what was sent or an error. A storage error of the responder is reported as an error, never as a shorter list. No peer makes the requester accept more bytes than its cap, nor hold more than one frame of a pack.", "quantifier": "every pack and chunking, every list of certificates within the size limit, every fragmentation and every point where the connection breaks, every hostile stream", "why_tests_cant": "Chunk boundaries, batch thresholds and breaks of the connection are unbounded choices.", "anchors": ["crates/consensus/primary/src/network/sync_codec.rs: write_pack_data_frames, sync_pack_reader, send_sync_certificates_over_stream, read_sync_certificates", "crates/consensus/primary/src/network/mod.rs: fetch_certificates, try_sync_epoch_pack_exchange", "crates/consensus/primary/src/network/handler.rs: process_sync_missing_certs_stream"]}
{"id": "C72", "title": "A request for missing certificates is answered with exactly those the requester lacks", "statement": "The request names every committee member and for each exactly the rounds above the bound for which the requester has a certificate. Read by a responder it means the same rounds. The answer lists, in order of round, exactly the responder's certificates above the bound that the requester does not have, up to where time or cap ends it; so each certificate comes after those of its parents the responder has and the requester needs. Whatever the request, if it is accepted then its size is within the limits and the answer has only certificates the responder stores that were not to be skipped, each once, rounds of an author ascending.", "quantifier": "every pair of reachable certificate stores, every bound, committee and request (also malformed ones), every cut of the answer", "why_tests_cant": "Which rounds exist at which of two nodes is an unbounded combination; offsets and bitmaps have boundary cases.", "anchors": ["crates/consensus/primary/src/network/message.rs: MissingCertificatesRequest::get_bounds, set_bounds", "crates/consensus/primary/src/state_sync/cert_collector.rs: CertificateCollector", "crates/consensus/primary/src/certificate_fetcher.rs: get_written_rounds"]}
{"id": "C73", "title": "A certificate whose ancestors are missing is fetched for until they are there", "statement": "A report of missing ancestors of this epoch leads to a target for its author at that round or a later one, unless a certificate of that author at that round or later is stored or the round is garbage collected. While there is a target, a fetch is running. A target is never lowered and is removed only when it is satisfied in that sense. One fetch runs at a time, and each is for the state of the store at its start. Reports of other epochs change nothing.", "quantifier": "every history of reports, kicks and results, with every reachable store and garbage collection round at each", "why_tests_cant": "Dropping a target or missing a restart shows only in particular orders of reports, results and store updates.", "anchors": ["crates/consensus/primary/src/certificate_fetcher.rs: CertificateFetcher, should_fetch_certificate, start_fetch_task, update_targets, handle_command, handle_fetch_completion"]}
{"id": "C74", "title": "A fetch round tries every peer before giving up", "statement": "A round over a list of peers fails only after each was asked and has answered uselessly; what it returns is the first answer that is not empty and has every certificate signed; it never stops while a peer is still to be asked or to answer; and it ends after fewer than twice as many turns as peers. So one useful peer is enough for a round not to fail.", "quantifier": "every number of peers, every order and content of answers, every interleaving with the timer", "why_tests_cant": "The interleaving of the timer, answers and errors is unbounded.", "anchors": ["crates/consensus/primary/src/certificate_fetcher.rs: fetch_from_peers, spawn_peer_fetch"]}
{"id": "C75", "title": "A peer that can serve what is asked for is eventually asked", "statement": "A request for an epoch pack or a consensus output asks at most three peers, none known not to speak the protocol, and is served exactly if one of those serves. A peer that does not speak the protocol is left out of later requests for packs. A connected peer that can serve is eventually asked, if the requester keeps trying.", "quantifier": "every list of peers, every assignment of answers, every state of the capability memory, every number of calls", "why_tests_cant": "The order in which peers are listed and their answers are unbounded choices; starvation shows only over unboundedly many calls.", "anchors": ["crates/consensus/primary/src/network/mod.rs: request_epoch_pack_sync, request_consensus_output", "crates/network-libp2p/src/consensus.rs: NetworkCommand::ConnectedPeers"]}
{"id": "C76", "title": "Admission limits hold in all and for each peer, and every slot is given back", "statement": "At no moment are more requests of a kind served than the limit in all, nor for one peer more than the limit for a peer. A request is refused only if one of the limits is reached. Whatever ends a request (success, failure, time-out, cancellation, panic), its slot is given back, so that when nothing is under way all slots are free. One peer cannot take all slots.", "quantifier": "every interleaving of any number of requests of any peers, with any end of each", "why_tests_cant": "The interleaving of two counters and a semaphore over unboundedly many concurrent tasks cannot be enumerated.", "anchors": ["crates/consensus/primary/src/network/mod.rs: try_admit_sync, try_admit_epoch_record, PeerSlotPermit", "crates/consensus/worker/src/network/mod.rs: try_admit", "crates/consensus/worker/src/network/handler.rs: prefetch limits"]}
{"id": "C77", "title": "A follower delivers the signed chain in order, each output once, and can always catch up", "statement": "A node that does not take part in consensus saves and hands to execution exactly the outputs the committees signed, in order, each once, never one of a later epoch, whatever its peers send it and in whatever order gossip, downloads, imports and restarts come; its archive has no hole up to the last number saved. It stops with an error only if the channel between its tasks overflowed, and then continues from the archive. When it misses an output it asks for it: the request is put off only if downloads under way cover it, each of which still has to pass it (or is left from an earlier run); a download that ends leaves everything it covered there, down to a height that is in a pack. From every state it can catch up with the newest header it knows of, as long as peers serve and no pack it holds lies above a hole.", "quantifier": "every history of gossip, answers of peers, imports, drains, saves, lost messages, changes of mode, restarts, with any number of concurrent walks", "why_tests_cant": "Walks run downwards while the drain runs upwards over the same cache; holes and double deliveries show only in particular interleavings with restarts.", "anchors": ["crates/state-sync/src/consensus.rs: WalkTracker, get_consensus_output, get_consensus_header_range, manage_new_consensus, spawn_fetch_recent_consensus", "crates/state-sync/src/lib.rs: spawn_stream_consensus_headers, catch_up_consensus_from_to", "crates/consensus/executor/src/subscriber.rs: handle_sync_output, follow_consensus", "crates/storage/src/consensus.rs: save_consensus_output"]}
{"id": "C29", "title": "The recorded, the live and the re-read base fee are the same number", "statement": "At an epoch close, the base fee the closing block writes on chain for each EIP-1559 worker (computed before its own gas is counted), the fee the live producer computes afterwards, and the fee any node reads back when it enters the next epoch are equal for every worker, including workers governance added during the epoch; static workers keep their configured fee; an honestly recorded word never halts the reader.", "quantifier": "every accumulator state, every worker configuration, every closing worker and every amount of gas it used", "why_tests_cant": "The three computations run in different crates on different inputs; an off-by-one-block error only shows for particular closing workers or freshly added workers.", "anchors": ["crates/tn-reth/src/evm/block.rs: record_next_epoch_base_fees", "crates/node/src/manager/node/run_epoch.rs: apply_close_time_fee_updates", "crates/node/src/manager/node.rs: read_base_fees_for_entered_epoch, EpochBaseFees::apply", "crates/types/src/gas_accumulator.rs: next_base_fee_for_config, entry_fee_for_worker, set_num_workers"]}
{"id": "C30", "title": "A restart at any point rebuilds the epoch's gas totals and leader counts exactly", "statement": "Whatever prefix of an epoch's consensus outputs was executed and persisted when a node crashed, after the restart (rebuilding from stored block headers, counting stored leaders, replaying the missing outputs) its per-worker gas totals and per-leader counts are those of a node that never crashed; no block and no leader is counted twice or missed, including outputs that produced no block.", "quantifier": "every sequence of outputs of an epoch and every crash point between outputs", "why_tests_cant": "Crash points and block-less outputs combine without bound; a double count only shows as a state divergence at the epoch close.", "anchors": ["crates/node/src/manager/node.rs: catchup_accumulator", "crates/storage/src/consensus_pack.rs: count_leaders", "crates/node/src/manager/node/start_epoch.rs: replay_missed_consensus", "crates/state-sync/src/lib.rs: get_missing_consensus", "crates/engine/src/payload_builder.rs: execute_consensus_output"]}
{"id": "C78", "title": "A task that waits for a signal is told, whenever it waits", "statement": "Once a call that gives a signal has returned, every noticer handed out before the call is noticed, and no task whose last poll of a noticed noticer found it not yet noticed is left asleep. No task is woken before every noticer of that call is noticed. A noticer never ceases to be noticed and is noticed only by a signal. The shutdown signal sticks: a noticer asked for after it is noticed from the start. The plain signal re-arms: a noticer asked for after it waits for the next one. A call always comes to its end.", "quantifier": "every interleaving of subscriptions, polls by any tasks and the single steps of any number of signals", "why_tests_cant": "A lost wake-up shows only in one interleaving of a poll with the steps of a signal; tests run a handful of them.", "anchors": ["crates/types/src/notifier.rs: Notifier, ShutdownNotifier, Noticer"]}
{"id": "C79", "title": "The channels of consensus have one reader at a time, lose nothing it should hear and block nobody when there is none", "statement": "A channel has at most one subscription, and subscribing panics exactly if there is one. While a subscription is active no message sent is dropped, whatever the subscription before it was doing when it began. Without one a send returns at once and leaves nothing behind, unless the channel is of the kind that keeps messages, which drops none. Messages come out in the order they went in, once each, and never more than the capacity wait. After a subscription is dropped the next one succeeds. What it left unread goes to the next.", "quantifier": "every interleaving of the atomic steps of subscribing, receiving, dropping and sending, any number of senders, every capacity", "why_tests_cant": "The order of two stores in a destructor decides whether a new subscriber is deaf; only an interleaving of two tasks shows it.", "anchors": ["crates/consensus/primary/src/consensus_bus.rs: QueChannel, QueChanReceiver"]}
{"id": "C80", "title": "The engine executes what it is handed in order, one at a time, and ends only when it should", "statement": "What has been executed, is being executed, waits in the engine and waits in its channel is together what it was handed, in order. Each output is executed on the header the one before gave. At most eight outputs wait in the engine and 64 in the channel. If it ends by the shutdown signal, everything it took has been executed; if because the channel is closed, everything it was handed; if an execution failed, that output is the first not executed and none behind it was started. It never spins and never stops with work to do; with nothing to do it waits for both the next output and the signal.", "quantifier": "every interleaving of hand-overs, executions of any duration and outcome, the shutdown signal, the end of the channel and the engine's own steps", "why_tests_cant": "The conditions of a select are evaluated once per turn; a signal between the check and the select is one schedule among unboundedly many.", "anchors": ["crates/engine/src/lib.rs: ExecutorEngine::run, spawn_execution_task, MAX_QUEUED_OUTPUTS", "crates/node/src/manager/node.rs: TO_ENGINE_CAPACITY"]}
{"id": "C81", "title": "Committed sub-dags become one unbroken chain of saved outputs", "statement": "The outputs a validator saves are the sub-dags consensus gave it, in order, numbered without a gap behind the last executed output, each naming the one before as its parent, however the fetches of their batches are timed. No output is broadcast before it is saved; before shutdown every saved output is broadcast. Nothing behind the sub-dag that reaches the end of the epoch is used. A failed fetch or save stops the task and nothing behind it is saved. On shutdown an initial piece is saved, all of it if the fetches end in time. Two validators given the same sub-dags save the same outputs, and a restart continues the same chain. Never more than a thousand fetches are under way.", "quantifier": "every order and outcome of fetches, saves and broadcasts, every point of shutdown, deadline or abort, every sequence of sub-dags", "why_tests_cant": "Fetches end in any order and the task can be stopped between any two steps; the chain must be unbroken in each case.", "anchors": ["crates/consensus/executor/src/subscriber.rs: Subscriber::run, handle_consensus_output, drain_pending_on_shutdown"]}
{"id": "C82", "title": "A state pack is read back as it was written, and a damaged or cut one is never taken for whole", "statement": "Whatever headers and accounts are exported, the file opens, passes verification with the tallies reported, and reads back, account by account or chunk by chunk, as what was written, each chunk within the bound. A file cut off anywhere or with an unreadable record passes no verification and no way of reading it ends without an error. Whatever passes verification, made by whomever, can be read both ways with the same result. No record above the bound reaches a reader, and after an error or the end a reader yields nothing more. The export of a node's tables writes each account with its code and all its non-zero slots in ascending order, and nothing else.", "quantifier": "all headers, accounts, tables and chunk boundaries, every cut or damage of a file, every file made by anyone", "why_tests_cant": "A corrupt snapshot is an arbitrary sequence of records; tests cut a file at a few places.", "anchors": ["crates/storage/src/exec_state_pack.rs: ExecStatePackWriter, ExecStatePackReader, verify", "crates/tn-reth/src/snapshot.rs: export_plain_state, stream_account_slots"]}
{"id": "C83", "title": "A restored node reads the block hashes of the chain", "statement": "The window of headers a restore accepts for a certified block is a stretch of the chain that ends with that block, whoever made it. Every later block that asks for the hash of one of the 256 blocks before it gets that block's hash on the chain. The headers an honest node exports at any block but the genesis block are accepted.", "quantifier": "all windows, all heights, all chains; hashes do not collide", "why_tests_cant": "A window one header too short forks the node only at the first contract that asks for the oldest hash.", "anchors": ["crates/tn-reth/src/snapshot.rs: import_chain_scaffold", "crates/node/src/manager/export_exec.rs: gather_headers", "crates/telcoin-network-cli/src/db.rs: scaffold_window"]}
{"id": "C84", "title": "A restored node has the certified state, and only that", "statement": "If `db load-state` succeeds with a bundle from anyone, and at most a third of the genesis committee and of each later one is faulty, then the bundle's records are the true ones, the block is one that ended an epoch, and the headers, state and codes restored are those of that block. What one node exports another restores: same accounts, nonces, balances, codes and slots.", "quantifier": "all bundles, all states and histories of records, at most a third faulty in each committee; no collisions of hashes and state roots", "why_tests_cant": "The claim is about every bundle an adversary can make and every state a chain can reach.", "anchors": ["crates/telcoin-network-cli/src/db.rs: DbLoadStateArgs::execute, verify_record_chain_in_memory, check_state_pack_matches_record, restore_pack", "crates/tn-reth/src/snapshot.rs: SnapshotRestorer, import_state"]}
{"id": "C85", "title": "A restore is safe to interrupt and does not touch a node's data", "statement": "Wherever a restore into a datadir without chain data stops, even in its own cleanup, a read below the snapshot's block is refused. If it reports success every read that goes ahead finds its state; if it reports failure nothing is left and it can be run again. On a datadir that has blocks it is refused and everything is kept, the floor below which reads are refused included.", "quantifier": "every point at which the process can stop or a step can fail, every datadir", "why_tests_cant": "The order of a dozen durable writes decides; a crash test would have to stop between each two of them.", "anchors": ["crates/telcoin-network-cli/src/db.rs: DbLoadStateArgs::execute, clean_created_chain_data", "crates/tn-reth/src/env/mod.rs: write_restored_state_floor, read_only_state_db", "crates/tn-reth/src/snapshot.rs: SnapshotRestorer"]}
{"id": "C86", "title": "The discovery table holds only records their owners signed, the newest within their life, and never more than its limit", "statement": "Whatever peers send, in whatever order, and however often the node is restarted: no operation panics, each record held was signed by the owner of the key it is under, names its publisher, has at most the allowed addresses and is within the size limit. While a record has not expired an inbound record replaces it only if the same owner signed it with a later time stamp. The node's own record is never changed or removed by others. The table is bounded; a newer record of an owner already held is stored however full it is, that of a new owner exactly if there is room once expired ones are dropped. The sender is penalised exactly for a record without publisher or one that is not authentic, so never for passing on what a correct node holds; what banned peers send or publish is not stored.", "quantifier": "all sequences of inbound, own, expiring records and restarts, all limits, clocks and bans", "why_tests_cant": "An adversary chooses the order, time stamps and expiries; tests put a handful of records.", "anchors": ["crates/network-libp2p/src/kad.rs: KadStore", "crates/network-libp2p/src/consensus.rs: process_kad_put_request, peer_record_valid, is_newer_record"]}
{"id": "C87", "title": "The address book of the committee is bounded, keeps its members and takes the newest answer", "statement": "From the first committee update on, whatever peers push, the book holds only the operator's peers and members of the previous, current and next committee. A member that is known stays known while it is a member and, unless the operator provisioned it, its time stamp never goes back; a newer record of a member is taken; records of others, or for other keys, change nothing; only well-formed endpoints are given out. An update looks up each member of the current and next committee that is not known; per key at most one lookup runs, and one that has ended can be started again. A lookup in which an authentic record for its key was heard leaves the member resolvable, by a record at least as new as all that were heard; a peer is penalised only for a bad answer.", "quantifier": "all sequences of committee updates, records, lookups, answers and ends, all table sizes", "why_tests_cant": "Interleavings of lookups with pushes and committee changes cannot be enumerated.", "anchors": ["crates/network-libp2p/src/consensus.rs: process_kad_event, close_kad_query, get_peer_record", "crates/network-libp2p/src/peers/manager.rs: add_known_peer, find_authorities, new_epoch"]}
{"id": "C88", "title": "The provider table is bounded and keeps the node's own announcement", "statement": "However inbound provider records, announcements, removals and restarts follow each other: no key has more providers than allowed, none twice, none with an empty list; the table has at most its number of keys and the counter is its size. An announcement of the node once in the table stays until the node itself withdraws it. Announcing on a free key of a table with room succeeds and announcing again always does. Records of banned providers are not stored, expired ones not shown; only the node's own are announced again.", "quantifier": "all sequences of operations, clocks, limits and bans", "why_tests_cant": "The property is an invariant of unbounded histories with adversarial keys and expiries.", "anchors": ["crates/network-libp2p/src/kad.rs: add_provider, remove_provider, provided, evict_expired_providers, scrub_corrupt_providers", "crates/network-libp2p/src/consensus.rs: process_kad_add_provider"]}
{"id": "C89", "title": "Offline validation of a pack reports every defect and only defects, and agrees with the import", "statement": "For every sequence of records of either version the validator gives a report exactly if the first record is the meta record and all can be read. The report has an issue exactly for each: header whose number is not its place, header whose parent is not the one before it (for the first: the previous epoch's end), batch a header refers to that is not in its group (and whether it is elsewhere in the file or nowhere), batch in a group that is not referred to, group that is right but not in ascending order, second meta record, wrong meta record. A file reported valid whose authors, epochs, last number and group sizes are those of the epoch is imported, with exactly its headers; a file that is imported with its headers in their places is reported valid.", "quantifier": "all record sequences, versions, epochs, previous records and limits", "why_tests_cant": "The property compares two programs over all files.", "anchors": ["crates/storage/src/pack_validate.rs: validate_pack_file, verify_v0_data, verify_v1_data, close_v1_group, finalize_report", "crates/storage/src/consensus_pack.rs: stream_import, verify_epoch_meta"]}
{"id": "C90", "title": "The gas and receipts of every block are those of the transactions that ran, and an accepted batch never stops the chain by its gas", "statement": "In every block built from a batch, header gas used = sum of the gas of the transactions that ran <= header gas limit; one receipt per transaction that ran, in order, with the gas used so far; skipped transactions leave no receipt and no change; system calls use no gas and make no receipt. If the batch passed validation, every transaction of it is recovered and the check that a transaction's gas limit fits the rest of the block, which is fatal for the block, never fires: the block is built unless the interpreter itself or a system call fails.", "quantifier": "all batches, world states, block contexts and interpreters that respect gas limits", "why_tests_cant": "The sum of gas limits over every batch against the block limit, for every mix of valid, invalid and skipped transactions.", "anchors": ["crates/tn-reth/src/evm/block.rs: execute_transaction_without_commit, commit_transaction, finish", "crates/tn-reth/src/env/execution.rs: build_block_from_batch_payload", "crates/batch-validator/src/validator.rs: validate_batch"]}
{"id": "C91", "title": "Epochs are closed by a fixed sequence of system calls, and the contract forks run once, at their epoch, over the pinned code only", "statement": "The closing part of a block succeeds exactly if incentives, slashes, the conclusion with the committee drawn from the pool read after the slashes, and the fee record (left out if no worker has a dynamic fee) all succeed, in this order, each on the state the one before left. System calls never change the system address' account, gas used or receipts; the pre-block calls change only their own contract, the beacon roots only in an output's first block. In an adiri build the two contracts' code is replaced in the block that concludes the epoch before the fork epoch, only over the pinned code (otherwise the block can never be built), keeping balance, nonce and storage; the sequence used before, at and after the fork is a function of the epoch.", "quantifier": "all world states, contracts, seeds, accumulators, epochs and chain histories", "why_tests_cant": "A statement about every state of every chain history, including re-execution of old blocks.", "anchors": ["crates/tn-reth/src/evm/block.rs: finish, apply_closing_epoch_contract_call, apply_closing_epoch_contract_call_legacy, record_next_epoch_base_fees, apply_consensus_registry_fork, apply_worker_configs_fork, transact_and_commit_system_call, apply_pre_execution_changes", "crates/types/src/forks.rs"]}
{"id": "C92", "title": "Every node enters an epoch with the view of the block that closed the epoch before", "statement": "Whenever and however a node enters or re-enters an epoch (at the boundary, after a crash, after a mode change, with any part of the epoch already executed, with committees burnt meanwhile), and whatever node-local faults its reads meet, the epoch number, committee, epoch boundary, worker count, base fees and neighbouring committees it enters with are those of the closing block of the epoch before (genesis for epoch 0; there the committee is the committee file), or it halts. One good attempt in three for each read suffices to enter. The fee read accepts no other block; a re-entry leaves the accumulator as it is. The start-up scan covers exactly the executed blocks of the epoch, and a finalized marker is healed to the persisted tip or refused.", "quantifier": "all chain histories, tips within an epoch, prefixes held by two nodes, fault schedules of the reads, accumulators", "why_tests_cant": "The same view must result from every tip of every history and every placement of faults; tests use one burn and one restart.", "anchors": ["crates/tn-reth/src/env/epoch.rs: epoch_state_at_epoch_start_from_tip, epoch_state_at_header, get_current_epoch_info_at_header, heal_finalized_to_persisted_tip", "crates/node/src/manager/node/start_epoch.rs: get_committee_with_epoch_start_info, create_committee_from_state", "crates/node/src/manager/node/run_epoch.rs: run_epoch, retry_provider_faults", "crates/node/src/manager/node.rs: read_base_fees_for_entered_epoch, sync_num_workers_from_chain, catchup_accumulator"]}
{"id": "C93", "title": "Shutdown notices reach everybody, and the end of a critical task is never missed", "statement": "A shutdown notice resolves every subscriber, before or after it, without a lost wake-up (the re-arming notifier: exactly those that subscribed before). The wait for a manager's tasks returns exactly on a shutdown notice, an exit signal received by its listener, or the end of a watched critical task; only the last, without a shutdown notice, is an error, and it names the task. Non-critical ends never end it. Whatever order the branches are taken in, the end of a watched critical task is found after boundedly many of them. When the wait has returned the shutdown notice has been given. Aborting ends the tracked asynchronous tasks and dropping the manager ends all asynchronous ones.", "quantifier": "all histories of spawns, ends, notices, signals, polls and all orders in which ready branches are taken", "why_tests_cant": "Select takes ready branches in any order; lost notices and lost wake-ups appear only in particular interleavings.", "anchors": ["crates/types/src/task_manager.rs: TaskManager::until_exit_internal, create_task, abort, update_tasks, TaskSpawner", "crates/types/src/notifier.rs: Notifier, ShutdownNotifier, Noticer", "crates/node/src/manager/node.rs: run", "crates/node/src/manager/node/run_epoch.rs: run_epoch"]}
{"id": "C94", "title": "A flush of the certificate pack that reports success has kept every certificate handed over before it", "statement": "When a flush or a shutdown of the certificate pack answers without error, every certificate handed over before it since the pack was opened is in the pack: a read by its digest returns a certificate with that digest, and the same certificate is returned after everything that happens later, crashes and restarts included (for a pack open for writing, whose index entry for the digest was right when it was opened, and unless a restart hits the split of the digest's index bucket). The first failure of a background save is kept unchanged and every later flush or shutdown reports it. Every flush in the channel of a running pack is answered. A read never returns a certificate with another digest or one that was never handed over. If no restart interrupts the writing of the index, membership and read agree. Handing over never waits, and consensus gives the pack up only when its thread has ended.", "quantifier": "all histories of saves, reads, flushes, shutdowns, disk failures at each write, crashes at each point and restarts", "why_tests_cant": "The order of a failing queued save and a flush, and what a crash leaves of data file and index, are never all exercised.", "anchors": ["crates/storage/src/certificate_pack.rs: CertificatePack, run_pack_loop, Inner", "crates/storage/src/error_latch.rs: latch_first_error", "crates/storage/src/archive/pack.rs: PackInner::append, commit", "crates/storage/src/archive/data_file.rs: DataFile", "crates/storage/src/archive/digest_index/index.rs: HdxIndex", "crates/consensus/primary/src/consensus/state.rs: new_certificate"]}
{"id": "C95", "title": "The worker gateway's rate limits hold over every stretch of requests and refuse only what exceeds them", "statement": "In any stretch of requests the gateway-wide limiter lets through at most its burst plus its rate times the rise of the requests' clock readings (times the elapsed time when they take the lock in clock order), and it refuses a request only when letting it through would exceed that over some stretch ending with it. The same holds per client prefix, whatever sweeps of idle entries run in between, except for requests let through untracked because the table was full of active entries; a client whose own requests keep to its limit is never refused by its own bucket. The table never holds more than its maximum. Probes are never limited. Two addresses share a bucket exactly when they are of one family (an IPv4-mapped IPv6 address counts as IPv4) and agree on the configured number of leading bits.", "quantifier": "all configurations, addresses, and interleavings of requests, clock reads, lock acquisitions and sweeps", "why_tests_cant": "The bound is over every sub-stretch of every schedule, including readings taken before a contended lock and sweeps in between; tests try a few instants of a fake clock.", "anchors": ["bin/worker-gateway/src/ratelimit.rs: Bucket, PrefixPolicy, PerIpLimiter, RateLimiters, rate_limit"]}
{"id": "C96", "title": "The worker gateway forwards a request at most once, only to an upstream whose latest poll said ready, never round a loop, and answers everything else itself", "statement": "Every request that is not a probe ends as exactly one of: an upstream's response, one JSON-RPC error of the gateway, or gone because the client hung up. It is sent at most once and to at most one upstream - the first in the configured order whose latest readiness poll was a payload saying that the worker accepts transactions - with its body untouched, the hop marker set and the peer appended to the forwarding chain; a request that carries the hop marker is sent nowhere. The raw-transaction screen rejects exactly the single calls whose string parameter does not decode or decodes to a type that is not accepted, and echoes the request's id. The in-flight gauge is the number of requests waiting for an upstream. Every answered request is counted once, except an upstream's own 408, which is counted twice. A worker counts as ready exactly when the node's probe answered yes in time. Open connections never exceed the maximum, no permit is lost, accept errors end nothing, nothing is accepted after the loop has noticed a shutdown, and after a shutdown at most the poll under way still reports. An upstream given as loopback, unspecified, localhost or the listen address is let through only when a single-family listener cannot be reached through it.", "quantifier": "all histories of polls, requests, bodies, upstream answers, time-outs, disconnects, accept errors and shutdowns; all upstream lists, bodies and addresses", "why_tests_cant": "The interleaving of polls, deadlines and disconnects with requests in flight and the accounting over whole histories are outside what a test of one request sees.", "anchors": ["bin/worker-gateway/src/proxy.rs: proxy, forward, screen_raw_transaction", "bin/worker-gateway/src/readiness.rs: run_poller, parse_ready, GatewayReadiness", "bin/worker-gateway/src/error.rs: GatewayError, RequestId", "bin/worker-gateway/src/server.rs: router, accept_loop", "bin/worker-gateway/src/cli.rs: into_settings, ensure_not_gateway", "crates/node/src/health.rs: serve, readiness_json"]}
{"id": "C97", "title": "Every outbound stream open is answered exactly once, with a stream to the peer asked for or the true reason", "statement": "A caller that asks the network for a stream to a peer gets exactly one outcome: while it has none it is held in exactly one place, the behaviour's list or the handler of a live connection to that peer. A stream is one negotiated on a connection to the peer asked for. `NotConnected` is given only while the peer has no connection, to a call without addresses or after a failed dial of that peer; `Timeout` only after fifteen seconds or a negotiation that timed out; `TooManyPending` only with a full list or handler; the channel closes without a value only when the connection holding the open closes. When the behaviour is idle, every open it holds waits for a dial of its peer that is under way. An open still held after a sweep was called less than fifteen seconds before it. Dials go only to peers without a connection. The list holds at most 1024 opens, a handler's queue 256, the event buffer 1024. While connections stay open, a peer gets at most 256 inbound streams through per second begun plus 256, and a stream is refused for its rate only if the peer opened 256 others within the last second. What is reported about a peer is its own failure, and a missing protocol is never reported.", "quantifier": "all interleavings of calls, polls, sweeps, connections opened and closed by anybody, dial failures of anybody, negotiations, inbound streams and passing time", "why_tests_cant": "The race between a dispatch, a disconnect, a foreign dial and the deadline decides whether a caller hangs for ever; tests drive single sequences.", "anchors": ["crates/network-libp2p/src/stream/behavior.rs: StreamBehavior", "crates/network-libp2p/src/stream/handler.rs: StreamHandler"]}
{"id": "C31", "title": "Consensus does not halt on valid certificates and start-up does not fail on honest data", "statement": "Processing any certificate of the epoch whose parents the node holds (or which lie at or below the garbage collection horizon) succeeds and terminates, at every reachable state; start-up from any stored prefix of an emitted sequence and a causally complete certificate store succeeds and restores committed round, schedule and randomness; the DAG never keeps certificates at or below the horizon.", "quantifier": "all reachable states of a node, all certificates of the epoch, all crash points and stored prefixes", "why_tests_cant": "an error here stops the consensus task of every node that meets the same history; unit tests cover a handful of DAG shapes while the loop over schedule changes, garbage collection and recovery interact over unbounded histories", "anchors": ["crates/consensus/primary/src/consensus/bullshark.rs: process_certificate, commit_leader", "crates/consensus/primary/src/consensus/state.rs: try_insert_in_dag, new_from_store, resolve_seed_chain_anchor"]}
{"id": "C32", "title": "A supported leader is committed immediately", "statement": "When a certificate of the round following an uncommitted leader slot arrives, the scheduled leader's certificate is in the DAG and certificates worth the validity threshold point to it, then at least one sub-dag is emitted at once and the committed round advances; unless a schedule change intervenes, it advances to exactly that leader's round.", "quantifier": "all reachable states, all certificates, all leader skip patterns before", "why_tests_cant": "progress depends on the interplay of support counting, leader walk and schedule changes over arbitrary histories", "anchors": ["crates/consensus/primary/src/consensus/bullshark.rs: process_certificate, commit_leader, order_leaders"]}
{"id": "C98", "title": "A validator never lets two different certificates for the same own header out, whatever crashes happen", "statement": "For every header the node proposes, all certificates for it that the node hands to its own consensus or publishes on the network, before and after any number of crashes and restarts, are one and the same certificate (the same signers and aggregate signature, on which the leader's randomness depends).", "quantifier": "all interleavings of the proposer, any number of proposal tasks, the asynchronous database writer, votes in any order, re-proposals, restarts and crashes at any point", "why_tests_cant": "The bad case needs a crash in the window between a re-proposal's barrier, a certificate's completion and the disk write; a test fixes one schedule.", "anchors": ["crates/consensus/primary/src/certifier.rs: Certifier::spawn_header_proposal, propose_header", "crates/consensus/primary/src/proposer.rs: Proposer::store_and_send_header, propose_next_header, run"]}
{"id": "C99", "title": "The certifier only certifies what the proposer handed over, with a real quorum, one proposal at a time", "statement": "A certificate of the epoch that leaves the certifier is for a header the proposer handed over, its signers are exactly the authors of valid votes for that header, beginning with the node's own, and they reach the quorum. What leaves by the main path belongs to this epoch and its record is on disk, now and after any crash. At most one proposal collects votes or publishes again at a time, and while it collects no certificate is recorded for its header. A header reaches the certifier only after its record is on disk. A new header cancels every proposal that has started. A certificate whose record is on disk at a restart is afterwards only published again. A vote request yields only a vote of that peer for that header, round and epoch; only parents of the header that the peer asked for are sent; transient errors are retried for ever with pauses up to ten seconds.", "quantifier": "all interleavings as in C98; all peers' answers; all committees and headers", "why_tests_cant": "Lock, cancel signal, barrier and votes interleave in ways tests do not enumerate; peers' answers are adversarial.", "anchors": ["crates/consensus/primary/src/certifier.rs: Certifier::run, spawn_header_proposal, propose_header, request_vote", "crates/types/src/notifier.rs: Notifier", "crates/consensus/primary/src/proposer.rs: Proposer::store_and_send_header"]}
{"id": "C100", "title": "Waiting for a certificate never misses it, never invents one and leaves nothing behind", "statement": "A call that waits for the certificate of a digest, while certificates are inserted and deleted and other calls wait and give up concurrently: if the store shows the certificate and no notification of that digest is under way, the call has been given a certificate; while one is under way, its own steps, none of which can be refused, give it one. What a call returns was in the store under the digest asked for. A waiting call's sender is never dropped unsent. When all calls have returned or given up, no registration is left and the counter of pending registrations is zero; it never goes negative and between calls it is exact. A call for a certificate that was stored and garbage collected before waits until somebody inserts it again.", "quantifier": "all interleavings, at the granularity of single lock acquisitions, atomic operations and store accesses, of any number of calls, cancellations, insertions, deletions and notifications", "why_tests_cant": "The lost wake-up needs the insertion between the registration and the read, or between removal of the senders and their service; tests fix one schedule.", "anchors": ["crates/tn-utils/src/notify_read.rs: NotifyRead::notify, register_one, cleanup, Registration::poll, drop", "crates/storage/src/stores/certificate_store.rs: save_cert, CertificateStore::notify_read"]}
{"id": "C101", "title": "Waiting for execution: success means executed, failure means a fork, and nobody waits for what is there", "statement": "The ring of recent blocks never leads the persisted chain and, when all reports are delivered, before or after any restart, holds exactly the last blocks of the last outputs, as many as its capacity. A wait for an execution block succeeds only if a persisted block has that hash; it fails only if another block is persisted at that number, the database read failed, or no reader was installed; it blocks only while the ring is empty or below that number, and returns within six steps once the number is reached. So a block an honest node names as its latest is never refused by a node whose chain agrees at that height. A wait for a consensus output succeeds only if a persisted block carries its digest or the output was skipped; it blocks only while the ring does not know it; an output is remembered while fewer than the capacity follow. After the wait for the closing output the ring's latest block is the closing block.", "quantifier": "all interleavings of persisting, reporting, delivery, skipped outputs, restarts, priming and any number of waiting calls; all chains and capacities; all numbers and hashes asked for", "why_tests_cant": "The reads of number, ring and database are separate and race with the update task and eviction; tests use a quiet ring.", "anchors": ["crates/consensus/primary/src/consensus_bus.rs: ConsensusBusApp::wait_for_execution, wait_for_consensus_execution, CanonicalReaderSlot::confirms", "crates/consensus/primary/src/recent_blocks.rs: RecentBlocks", "crates/node/src/engine/inner.rs: last_executed_output_blocks", "crates/node/src/manager/node.rs: try_restore_state, spawn_engine_update_task", "crates/tn-reth/src/env/execution.rs: persist_executed_output, announce_executed_output", "crates/tn-reth/src/env/helpers.rs: canonical_execution_hash"]}
{"id": "C102", "title": "The tn RPC namespace: bounded work, answers from one block, nobody refused for want of capacity", "statement": "At most 64 places of the blocking pool are ever taken by the namespace; permits are neither lost nor made up, a client that disconnects while its work runs frees nothing, and a client that has its answer finds the permit returned. A key of a length no encoding has is refused at once and costs nothing, also at full load; every other request is served, in the order of arrival: while it waits at most as many works end as calls were ahead of it, the node's own steps are bounded by five per request, and when none is left every client that stayed has its answer. Every answer is to the call's own request and computed on one block that was the tip between the request and the answer; \"Any\" lists every validator of the five statuses exactly as often as the registry of that block does, or fails as a whole; a revert reaches the client with its bytes, any other failure only as internal.", "quantifier": "all interleavings of requests, disconnects, grants, starts, ends, panics and cancellations of the work, hand-overs and committed blocks; all registries", "why_tests_cant": "The bound and the single block must hold for every interleaving of disconnects and commits; tests use one or two calls.", "anchors": ["crates/execution/tn-rpc/src/rpc_ext.rs: spawn_bounded_blocking, proof_of_possession_message_bounded, get_validators, spawn_registry_read, registry_read, get_current_stake_version", "crates/tn-reth/src/env/epoch.rs: read_consensus_registry, read_consensus_registry_batch, read_consensus_registry_batch_at_header, call_consensus_registry", "crates/types/src/task_manager.rs: TaskSpawner::spawn_blocking_task", "crates/types/src/crypto/bls_signature.rs: construct_proof_of_possession_message", "crates/types/src/crypto/bls_public_key.rs: is_plausible_encoding"]}
{"id": "C103", "title": "Routing of epoch votes to the rounds that collect them", "statement": "Votes forwarded by the gossip handler are dealt with in order, and each is put into exactly one round's channel or lost, never both, never twice. A round is given only votes of its own epoch, in the order forwarded; as long as its entry is there and it has not ended it is given all of them since the entry was made, also those that came before its record, unread. At most five epochs have entries, none two. A vote is lost exactly when its round has ended, or it has no entry and the list is not empty and it is not of the epoch after the last. When records come in order and no vote comes for a round that has ended, no vote of the latest record's epoch or of the next is ever lost. The router never has to wait if no epoch has more than 10000 votes.", "quantifier": "all interleavings of forwarded votes, written records, the router's steps, the rounds' reads and ends", "why_tests_cant": "Which votes reach the round depends on the order of late votes, ends of rounds and records; tests drive one order.", "anchors": ["crates/node/src/manager/epoch_votes.rs: get_new_vote_channel, handle_new_vote, spawn_epoch_vote_collector", "crates/node/src/manager/close_epoch.rs: epoch_record_watch"]}
{"id": "C104", "title": "The database of epoch records on the disk", "statement": "What is read for an epoch is a record of that epoch that was handed over; there are no gaps; the first record stored for an epoch wins, and while the node runs it stays. A write without error has stored the record or found one for its epoch; a failed write changes no record that can be read; a record is refused unless the one before it is stored. A restart after any crash loses at most a tail of the records, and none that could be read at a persist that reported success: those are read ever after, whatever writes, syncs or crashes go wrong later. The same holds of a certificate saved for a record that had none, unless an interrupted split of the digest index loses its entry. A flush reports success only if, for each queued write before it that failed, somebody was told of an error; if nobody was told since the record was queued, its epoch has a record for ever.", "quantifier": "all histories of queued writes, failing writes and syncs, crashes within a persist at every point, torn files and indexes found at a restart, and all interleavings of the callers with the background thread", "why_tests_cant": "Crash points within the five syncs and the states of three indexes against two files are far too many for tests; the tests cut one file.", "anchors": ["crates/storage/src/epoch_records.rs: Inner::{heal_records, heal_certs, open_append, save_record, save, save_certificate, persist, try_record_by_epoch, record_by_digest, cert_by_digest, epoch_certified}, run_db_loop, EpochRecordDb::{get_error, save_record, persist}", "crates/storage/src/archive/position_index/index.rs", "crates/storage/src/archive/pack.rs: record_size"]}
{"id": "C105", "title": "Publication of snapshot bundles", "statement": "A snapshot bundle that appears under its final name is complete: the state of exactly one block, that with which its epoch was closed and which was the persisted tip when it was written; the epoch's consensus pack; the records of all epochs from 0 to its own, each one handed over for its epoch; and for each record a certificate that certifies its digest. Nothing of an earlier, interrupted attempt is in it, whatever such an attempt left behind and however its removal failed. While the node runs a published bundle is never changed or replaced, and one that was there at the start survives every crash; exports of different epochs do not touch each other's directories. If the records and certificates stored are the true ones, the importer's check accepts the bundle, whether it was built from the bundle before it or anew. An export is skipped beforehand exactly if an earlier epoch lacks its certificate; if none lacks it, the exporter is idle, the block is the tip and the disk works, the bundle is published. At most four exports wait.", "quantifier": "all interleavings of epoch boundaries, the exporter's thread, the completing tasks of several epochs, arriving records and certificates, the advancing tip, failures of every disk operation, deletions by the operator, and crashes at every point", "why_tests_cant": "Tests run one export on an idle node; the interleavings of exports with boundaries, and what crashes and failed removals leave behind, are unbounded.", "anchors": ["crates/node/src/manager/node/close_epoch.rs: export_epoch_state, remove_tmp_export, sweep_stale_tmp_exports", "crates/node/src/manager/export_exec.rs: ExecStateExporter::trigger_export, run_worker, export_once", "crates/storage/src/epoch_records.rs: export_bounded_bundle, export_incremental_bundle, try_append_previous_bundle, append_bundle_increment, append_to_copied_pack, pack_entry_chain, first_missing_historical_cert"]}
{"id": "C106", "title": "The role of a node over its life", "statement": "A node takes part in consensus exactly as its membership allows. Whatever the interleaving of the tasks that read and write its mode, headers are proposed, certificates sequenced and outputs of its own consensus saved only in epochs whose committee has the node, and never by a node configured as an observer; votes are signed and batches sealed only in epochs whose committee has it. A node configured as an observer is in observer mode at every moment. While an epoch runs, the mode stays the one it was entered with until the epoch's shutdown is signalled; a validator goes inactive only when a check begun while it was active finds it behind, or its consensus task finds a fault, and leaves that mode only when its catch-up delivers the newest output known with that header less than five seconds old, or by a restart of the process. After a catch-up the epoch is entered again as active if the node is in the committee, as observer if not. Within one start of an epoch outputs reach execution from one source only, and a following node always has its state sync. Starting the primary never fails on a missing identity.", "quantifier": "all interleavings of epoch starts stage by stage, checks of the request handler in flight, faults, outputs, votes, batches, epoch ends, replays and crashes, for every assignment of committees to epochs and both settings of the observer flag", "why_tests_cant": "The mode is read at a dozen places and written at four, from different tasks; tests drive single transitions on an idle bus, not a write between any two of the reads nor histories over many epochs.", "anchors": ["crates/node/src/manager/node/start_epoch.rs: identify_node_mode, should_subscribe_batch_topic", "crates/node/src/manager/node/run_epoch.rs: run_epoch", "crates/consensus/executor/src/subscriber.rs: spawn_subscriber, catch_up_rejoin_consensus", "crates/consensus/primary/src/network/handler.rs: behind_consensus, vote", "crates/consensus/primary/src/consensus/state.rs: new_certificate", "crates/consensus/primary/src/primary.rs: spawn", "crates/consensus/primary/src/proposer.rs: spawn", "crates/state-sync/src/lib.rs: spawn_state_sync"]}
{"id": "C107", "title": "Gossip: what is taken, how far it spreads and who pays", "statement": "A node takes a gossip message - hands it to its application and passes it on - exactly if it is at most 12000 bytes, names its source, and its topic is subscribed with that source's resolved identity among the topic's publishers (or for everybody). In every history, with any behaviour of dishonest peers and whatever the state of the committees at each node: an honest peer is never charged for a message it passed on; an honest author is only charged for messages it published itself; a message whose content is right costs its author at most a mild penalty, for a certificate that arrives after its round was collected; a penalty against an honest peer has an effect only where the node's committee slots are two or more epochs away from the epoch the message was made in; no node is charged by itself. A message of a member spreads along every path of honest nodes that have subscribed its topic for an epoch of which the author is a publisher, know the author and have not seen the message, and nobody is charged on the way; votes and outputs do so across an epoch boundary.", "quantifier": "all histories of subscriptions, committee updates, identity resolutions, publications, deliveries in any order between honest and dishonest peers, application processing with any outcome of the checks, and cache expiries; all committees", "why_tests_cant": "The attribution depends on where in the epoch each of two nodes is, on what identities are resolved and on who relayed; tests check single verdicts at one node.", "anchors": ["crates/network-libp2p/src/consensus.rs: process_gossip_event, verify_gossip, RejectReason", "crates/consensus/primary/src/network/mod.rs: process_gossip", "crates/consensus/primary/src/error/network.rs: is_author_content_fault", "crates/consensus/primary/src/network/handler.rs: process_gossip", "crates/consensus/worker/src/network/handler.rs: process_gossip", "crates/consensus/worker/src/network/error.rs", "crates/network-libp2p/src/peers/manager.rs: process_penalty", "crates/node/src/manager/node/start_epoch.rs: subscriptions"]}
{"id": "C108", "title": "When a validator finds itself behind", "statement": "An active validator goes inactive on a certificate or an agreed output exactly when it is too far behind, measured by what it has itself done. Within the epoch it runs: iff the round is more than the activity window (garbage collection depth less ten) beyond the last output it has committed itself; so no output it has committed, and no certificate up to it, is an alarm, and while there is no alarm its peers still keep all the rounds it lacks. For an output of a later epoch: iff the output is more than one beyond both the last it processed and the newest it has heard of. For a certificate: never for an earlier epoch; for the next epoch iff its round is beyond the window; always for later ones. The check changes nothing else, and nothing in a node that is not active. A node that is far behind - two epochs, or more rounds than its peers keep - is told by the next certificate that reaches it.", "quantifier": "all chains of agreed outputs (any lengths of epochs, any rounds), all histories of commits, processing at any lag, epoch changes, restarts with loss of the unsaved, catch-ups and messages in any order, all garbage collection depths", "why_tests_cant": "The verdict compares four clocks that are updated by different tasks (engine, consensus, gossip, epoch start); tests set the four by hand to three combinations.", "anchors": ["crates/consensus/primary/src/network/handler.rs: behind_consensus", "crates/consensus/primary/src/recent_blocks.rs: push_latest", "crates/consensus/primary/src/consensus_bus.rs: last_consensus_block, reset_for_epoch, publish_consensus_num_hash_if_newer", "crates/state-sync/src/lib.rs: prime_consensus"]}
{"id": "C33", "title": "An acknowledged durability barrier means everything written before it is on disk", "statement": "For the layered (memory over disk) database in both modes: whenever a persist call has been answered with success, the persistent database holds all writes issued before that call, followed by some of the later ones in order, whatever overlapping transactions and failures of individual physical operations there were; and when all transactions have ended and the queue is handled, every persist call has its answer.", "quantifier": "all interleavings of writes, overlapping transactions, barriers, background thread steps and failures of physical operations, all crash points", "why_tests_cant": "crash points and interleavings of the background thread with overlapping transactions are unbounded; a unit test sees a few of them", "anchors": ["crates/storage/src/layered_db.rs: LayeredDatabase, db_run, persist, LayeredDbTxMut"]}
{"id": "C34", "title": "Reads of the layered database return the latest write", "statement": "In full-memory mode a key last written with a value reads as that value at any moment whatever the background thread has done; in both modes, once the queue is handled without failures, every read returns exactly the result of all writes in order; after a crash a read returns what is on disk; memory retained for pending inserts is released.", "quantifier": "all histories of writes, transactions, thread steps and failures, all keys", "why_tests_cant": "stale reads appear only under particular interleavings of the memory layer with the background thread", "anchors": ["crates/storage/src/layered_db.rs: LayeredDatabase::get, contains_key, db_run, retained inserts"]}
{"id": "C109", "title": "When the proposer proposes", "statement": "A header of a new round is made only over parents, and only when the maximal delay is up, or the batch threshold is reached, or the minimal delay is up. After the first header of the run, each is of the round after the one its parents are of, and one made before the maximal delay has the leader's certificate among its parents (even rounds), or has a validity threshold of votes for the leader, or a quorum without, or no leader to vote on, or leads the next round (odd rounds). A header is sent again only after the maximal delay. Between events the proposer with no header in hand is never idle when it could propose. In any state, whatever arrives: with parents or an earlier header at hand it makes or sends a header within the maximal delay, unless parents of a later round arrive (which start the delay anew); once found ready it does within the minimal delay, while the schedule stays; and parents of a later round that are ready are proposed on before any time passes. With a certificate of every member there is nothing to wait for.", "quantifier": "all histories of digests, parents of any round and content, commits, ends of the sending task, ticks of the two intervals and changes of the leader schedule, in any order and at any times; all committees, thresholds and delays; all states of restart", "why_tests_cant": "Two timers, two sticky flags, a readiness flag and a task in flight are combined in one select loop; tests drive a few of the orders with mocked time.", "anchors": ["crates/consensus/primary/src/proposer.rs: run, process_parents, propose_next_header, handle_proposal_result, ready, update_leader, enough_votes, calc_max_delay, calc_min_delay, new"]}
{"id": "C110", "title": "The signature precompile and proofs of possession", "statement": "A contract that calls the BLS verifier with a signature, a key and a message of at most 4096 bytes, and enough gas, is charged exactly 150000 plus 12 for each started word of the message and is told true exactly when the signature has 48 bytes, the key 96, both decode and the signature verifies; a bad signature is the answer false, not a failure. Less gas is out of gas, a longer message an error whatever the gas; no input whatever is charged more than was given or outside 150000..151536, and none makes the arithmetic overflow. Uncompressed encodings are refused. The check of a proof of possession on chain and the one of the genesis ceremony agree on every proof, key and address; the proof a node makes for its own key passes both at a cost of 150048; and an accepted proof was given by the holder of that key for that key and that address: nothing else it has ever signed can be passed off as one.", "quantifier": "all call data, gas limits, signatures, keys, messages and addresses; every curve that satisfies the usual laws, every decoder that inverts the standard encoding, everything the holder of a key has signed", "why_tests_cant": "Tests try a few keys, lengths and one wrong selector; agreement of two checks and separation from all other signed messages are statements about all inputs.", "anchors": ["crates/tn-reth/src/evm/bls_precompile/mod.rs: dispatch, handle_bls_verify, bls_verify_gas_cost, bls_verify", "crates/types/src/crypto/bls_signature.rs: verify_proof_of_possession_bls, construct_proof_of_possession_message, bls_verify_secure", "crates/types/src/crypto/bls_public_key.rs: from_literal_bytes", "crates/config/src/keys.rs: generate_proof_of_possession_bls"]}
{"id": "C111", "title": "The genesis ceremony", "statement": "From the validators' files and the command's arguments the ceremony makes a genesis block and a committee that fit together, or nothing. If the keys differ: the result does not depend on the order in which the directory lists the files; the committee consists of exactly the files' validators, each with its own address and network nodes, in the order of the keys, at least two; every one has proved possession of its key for its address; the registry in the genesis block was constructed with the same members and addresses in the same order and holds their stakes. One bad proof or unreadable file and nothing is written. The fees in the fee contract are, worker by worker, those given, in whatever order; any list with ids 0, 1, \u2026 each once and known strategies is accepted and no other. The system accounts are in the block as made unless an argument names their address; an account of the operator's file is in the block as given.", "quantifier": "all directories of files in any order, all arguments, all account files, all contract constructors", "why_tests_cant": "Tests run the ceremony on one directory of distinct good files; independence of the order and agreement of two independently built lists are statements about all inputs.", "anchors": ["crates/config/src/genesis.rs: load_validators_from_path, new_from_path_and_genesis, validate, create_committee", "crates/telcoin-network-cli/src/genesis/mod.rs: parse_worker_fee_configs, execute", "crates/tn-reth/src/env/genesis.rs: create_consensus_registry_genesis_accounts", "crates/types/src/committee.rs: add_authority_and_bootstrap, load"]}
{"id": "C112", "title": "The bounded waits for an epoch's record and certificate", "statement": "Waiting with a timeout for an epoch's certificate, or for its certified record, ends: whatever the delays of the database and the timers, the first ends by the deadline plus the lateness of one timer and one round trip, the second by one poll interval (200 ms) and one more round trip after that. What is returned is what the database answered to the wait's last lookup; a record only with a stored certificate of its digest that verifies. Nothing is reported missing before the deadline. What is stored one round trip (for a certified record two) before the deadline is returned; with instant answers the first wait returns exactly what is stored at the deadline. An invalid certificate or a failed read ends the wait at the attempt that meets it. With a timeout of n intervals there are at most n + 2 lookups, n + 1 attempts. The assumption that entries stay holds of the database under every schedule of writes.", "quantifier": "all timeouts, all delays of lookups and timers, all histories of writes to the database and their times", "why_tests_cant": "Tests run single timings under a paused clock; the bounds and the visibility of late writes are statements about all interleavings of the writes with the polls.", "anchors": ["crates/storage/src/epoch_records.rs: poll_until_deadline, cert_by_digest_with_timeout, certified_record_by_epoch, certified_record_by_epoch_with_timeout, certified_record_poll, CertifiedRecordError::is_retryable"]}
{"id": "C113", "title": "The fee cap on submitted transactions", "statement": "With a cap of c > 0 wei, whatever bytes are submitted with either raw submission method on whatever transport: they are handed to the node only if they decode to a transaction whose maximal fee, gas price bound times gas limit plus blob price bound times blob gas, is at most c in exact arithmetic (the saturating arithmetic never saturates), so however the transaction is executed it is charged at most c in fees. Every such transaction is handed over, unchanged. Empty bytes, undecodable bytes and fees over the cap give each its own error, the last with the fee and the cap. A cap of zero lets everything through. A transport without the eth namespace serves no submission method; all other methods are untouched. The check is never laxer than that of the pool's validator.", "quantifier": "all byte strings, all decoders with fields of the stated widths, all caps, all configurations of transports, all executions within a transaction's limits", "why_tests_cant": "Tests try a few transactions on one transport; that no input on any transport passes over the cap, and that no product overflows, are statements about all of them.", "anchors": ["crates/tn-reth/src/rpc_fee_cap.rs: TxFeeCapWei::enforce, check_cap, EthSubmitWithCap", "crates/tn-reth/src/env/rpc.rs: get_rpc_server"]}
{"id": "C114", "title": "The keys of a node on disk", "statement": "A key generated with a passphrase is read back with that passphrase, with the same network keys, and with no other passphrase and not without one; blanks around the stored text do not matter; whatever lies in the file, a key is read from it only if the bytes authenticate under the passphrase. Without --force a directory that holds anything is not written. After any history of generations with passphrases, proofs of possession and changes of the RPC endpoint, with any arguments and failures before the keys are written, node-info.yaml names the key and both network keys that are read with the last passphrase, and its proof of possession is good for its address. A proof of possession is made only for the key the file names and changes nothing else. A crash between the files of a first generation leaves either nothing readable or keys that are read as if all had been written. A passphrase is taken from where the user says, a new one only if entered twice alike and not empty; commands that use no key run without one.", "quantifier": "all key files, passphrases, random draws, arguments and histories of commands, all crash points between file writes, all ways to give a passphrase", "why_tests_cant": "Tests round-trip a few keys in a fresh directory; that no other passphrase opens a key and that the info file fits the keys after every history are statements about all of them.", "anchors": ["crates/config/src/keys.rs: KeyConfig::read_config, generate_and_save, wrap_bls_key, unwrap_bls_key", "crates/telcoin-network-cli/src/keytool/mod.rs", "crates/telcoin-network-cli/src/keytool/generate.rs: set_proof_of_possession, finish_execute", "crates/telcoin-network-cli/src/keytool/pop.rs", "crates/telcoin-network-cli/src/keytool/set_rpc.rs", "crates/telcoin-network-cli/src/passphrase.rs: resolve_bls_passphrase_with_reader"]}
{"id": "C115", "title": "Pack files and pack streams, byte by byte", "statement": "Whatever bytes a peer or a disk delivers, a value is read from a pack stream only out of a whole record with its right size and checksum, from which it decodes; reading a source to its end without an error means that it is a sequence of such records and at most three more bytes. What was written is read back in order; a stream that is cut anywhere yields exactly the values whose records are whole and then its end or one error. Any change within 32 consecutive bits of a record behind its size, checksum included, is reported as a checksum error, and the values before and behind are still read; likewise any such change of a file's header. Reading takes a buffer of at most 16 MiB and one byte more for decompressed data, whatever the sizes claimed; the iteration ends, after at most one item per four bytes. Reading at a position agrees with iterating from there, and the size of a record with how far the iterator moves. A file is opened as that of its epoch and of no other (identifiers of different epochs differ), a file of a newer version not at all.", "quantifier": "all byte strings, values and their order, all cuts, all positions and forms of damage within 32 bits, all epochs (64-bit numbers), all encodings and compressions with the stated laws", "why_tests_cant": "Tests damage a few bytes and cut at a few places; that nothing but whole records is ever read, that every short burst is detected and that no input exceeds the memory bound are statements about all inputs.", "anchors": ["crates/storage/src/archive/pack.rs: write_value, read_record, record_size, DataHeader, open_data_file", "crates/storage/src/archive/pack_iter.rs: PackIter, AsyncPackIter", "crates/storage/src/archive/crc.rs", "crates/storage/src/archive/fxhasher.rs: FxHasher"]}
{"id": "C116", "title": "The node's database: transactions are all or nothing and never block durability", "statement": "For the database the node opens (three databases behind one interface, each table in one of them), whatever transactions overlap, are cloned, committed or abandoned on whatever path: a key of a table kept in memory reads as the last value written, through any transaction or directly; a successful persist of a table means that every earlier write to tables of its database is on disk; once every transaction was committed or dropped, each persist is answered; as long as no physical operation on a database fails, its content on disk (so after a crash at any moment, every read) is the result of all writes up to a moment at which no transaction on it was open, so that of each transaction all its writes to that database are there or none; a failing database does not disturb the other two.", "quantifier": "all histories of transactions (begun, cloned, written through, committed, dropped), direct writes, persist calls, steps of the three background threads with any outcome, all crash points, all initial contents", "why_tests_cant": "Atomicity and the balance of begun and ended transactions are statements about all interleavings of any number of overlapping cloned transactions with three threads and about every crash point; a test runs a few.", "anchors": ["crates/storage/src/composite_db.rs: CompositeDatabase, CompositeDbTxMut", "crates/storage/src/layered_db.rs: TxnGuard, LayeredDbTxMut, end_txn, db_run", "crates/storage/src/lib.rs: open_db, tables"]}
{"id": "C117", "title": "Dialing: one true answer for each call, no dial to itself or to the banned, and discovery that fills the missing places only", "statement": "For every history of calls to dial, connections, failures, closings, discovery results, heartbeats, bans and evictions: each call is at any time in exactly one place (in the queue, waiting for its dial, or ended, by one answer or by its channel being dropped when a later call for the same peer is registered); every answer is about the peer asked for and is true when it is given (ok only if that peer is connected, or is this node; banned, dialing or connected only if the peer is; timeout only after the dial timeout; failed only when the swarm reported a failure for that peer); every queued request reaches the swarm, in order, after as many polls as there are events and requests before it; a connection, a failure, or the first heartbeat after the timeout answers the waiting call; this node is never dialed by itself, and no outbound connection is let out to itself or to a peer held banned. In each heartbeat discovery dials different stored peers that are eligible then (not itself, at most one address, with an ip and no banned ip, not connected, dialing or banned), as many as are missing to the target and available, whatever the random draw; these leave its map, of which at most twice the target stays; and it asks for a search if and only if fewer are left. Peers from an exchange never lift the map above that.", "quantifier": "all histories of events, all peers and addresses, all random draws, all targets and timeouts, all changes of peer records by other parts of the node at any time", "why_tests_cant": "The calls, the swarm's reports, the heartbeat's expiry and other parts of the node interleave freely, and the draws are random; a test fixes one order and one draw.", "anchors": ["crates/network-libp2p/src/peers/manager.rs: PeerManager::dial_peer, register_dial_attempt, register_peer_connection, eligible_for_discovery, process_peers_for_discovery, process_peer_exchange, discovery_heartbeat", "crates/network-libp2p/src/peers/behavior.rs: handle_pending_outbound_connection, poll, on_dial_failure", "crates/network-libp2p/src/peers/all_peers.rs: heartbeat_maintenance, register_dial_attempt, notify_dial_result, handle_status_transition", "crates/config/src/network.rs: PeerConfig::max_discovery_peers"]}
{"id": "C118", "title": "Restoring a node from a bundle: certified records, the epoch's own consensus chain, and the hint to resume from", "statement": "The check of the bundle's records that db load-state makes in memory before it writes anything accepts exactly the bundles that the later rebuild of the record database accepts into a fresh directory, so once the execution state is imported the records are never refused. If the restore of the consensus half reports success into a fresh directory, the record database holds exactly the bundle's records, each readable as certified, with the last consensus number of every epoch; the pack of the last epoch is exactly the consensus chain from the last header of the epoch before to the last header the final record names, each output with the batches it names; and the hint names that epoch and number. If it reports an error, no hint is written and the fresh directory has no pack of the epoch. A bundle whose records pass the check and whose data are those of a complete pack that continues them is restored, to that very pack. Over a directory that holds records already, success still means that all records but the last are those of the bundle.", "quantifier": "all bundles (any records, certificates and data), all genesis committees, both versions of the pack format, all contents of the directory", "why_tests_cant": "A bundle comes from elsewhere and may be anything; tests restore a few bundles of their own making into an empty directory.", "anchors": ["crates/telcoin-network-cli/src/db.rs: restore_consensus_and_records, verify_and_save_epoch_records, reject_non_contiguous_records, read_bundle_certs, verify_record_chain_in_memory", "crates/storage/src/epoch_records.rs: validate_downloaded_record, save, save_dummy_epoch0, certified_record_by_epoch", "crates/storage/src/consensus_pack.rs: Inner::stream_import, latest_consensus_header", "crates/storage/src/consensus.rs: write_latest_consensus_hint"]}
{"id": "C119", "title": "The three storage databases answer alike", "statement": "For any history of calls on tables that were opened once at its start, with every transaction committed, the database in memory, the mdbx database and the redb database give the same answers to every call, and these are the right ones: a read returns the value last written for the key and not removed or cleared since; is_empty tells whether there is any; iter, reverse_iter and skip_to return exactly the rows that are there (from the key on), each once, ascending or descending in the order of the keys; record_prior_to returns the row with the greatest key below the given one, last_record the one with the greatest key. A transaction takes effect as a whole, in the order of its writes; one that is dropped has no effect on the two databases in files.", "quantifier": "all histories of reads, writes, transactions and iterations, all tables, keys and values, and all types of keys whose encoding keeps their order (proved for the tables' keys)", "why_tests_cant": "The tests of the repository run the same short script against each database with integer keys; that reads and iterations agree after every history needs an argument about ordered trees.", "anchors": ["crates/storage/src/mem_db.rs: MemDatabase, MemDbTxMut", "crates/storage/src/mdbx/database.rs: MdbxDatabase, MdbxTxMut", "crates/storage/src/redb/database.rs: ReDB, ReDbTxMut", "crates/storage/src/redb/wraps.rs: KeyWrap::compare", "crates/types/src/codec.rs: encode_key, decode_key"]}
{"id": "C35", "title": "The certificate store's indexes agree with its contents and its queries are exact", "statement": "After any sequence of writes, batch writes, deletes and round garbage collections: the certificates after a round, the origins after a round, the highest round, the last two rounds, an author's last and next rounds and the lookup by author and round return exactly what follows from the certificates stored, in order and without repetition; a batch write keeps exactly the written and previously stored certificates of the last ROUNDS_TO_KEEP rounds below the highest round written.", "quantifier": "all histories of store operations over certificates that are unique per author and round, all rounds and authors", "why_tests_cant": "an index that drifts from the primary table shows only after particular sequences of overwrites, deletes and collections", "anchors": ["crates/storage/src/stores/certificate_store.rs: save_cert, write, write_all, gc_rounds, delete, after_round, origins_after_round, last_two_rounds_certs, highest_round_number, last_round, last_round_number, next_round_number, read_by_index"]}
{"id": "C120", "title": "The node's health endpoint", "statement": "Every connection accepted by the endpoint is answered, once and in the order of arrival, within three seconds plus three seconds for each earlier connection that was not yet answered when it came; an accept error changes nothing. A worker is reported as accepting only if its probe, asked after the connection came, said so within one second. The readiness answer is given exactly to connections whose first read is a request whose second word, up to a question mark, is the workers' path, and a well-formed poll that arrives whole, with nobody before it, is told what the probe says as soon as the probe says it. The length in an answer's head is that of its body.", "quantifier": "all sequences of connections and accept errors, all times and pieces in which clients send, all bytes, all behaviours of the probe", "why_tests_cant": "The bound is over arbitrary queues of slow clients and pieces of requests; the tests open one connection at a time.", "anchors": ["crates/node/src/health.rs: serve, request_path, readiness_json, LIVENESS_RESPONSE", "bin/worker-gateway/src/cli.rs: readiness_poll_timeout"]}
{"id": "C121", "title": "Receiving from a broadcast channel", "statement": "A receiver of a broadcast channel is given messages sent since it subscribed, in the order they were sent, each at most once. A message is passed over only when more than the channel's capacity was sent from it on, and as many are passed over as tokio reports; a receiver that never lags so far is given every message. recv says that the channel is at its end exactly when the last sender is gone and everything was read, never because of a lag; as long as something is unread it returns a message, the first unread one or the oldest that is kept. try_recv reports a lag.", "quantifier": "all capacities, all histories of sends, receives and the end of the senders", "why_tests_cant": "An earlier version took a lag for the end of the channel and observers stopped following; the tests overflow one channel once.", "anchors": ["crates/types/src/sync.rs: TnReceiver for broadcast::Receiver, TnSender for broadcast::Sender, TryRecvError"]}
{"id": "C122", "title": "The files of a digest index", "statement": "A new digest index that is written and opened again has the header it was made with, in both files; a header written with any field values is read back with them. A header that was changed within 32 consecutive bits is refused, and so is a file of zeros. An index is opened from a file only if the header passed its checksum and names the data file's version, application and identifier, this program's bucket layout and this program's hash function; a read-only opening makes no file; in particular the index of another data file is refused, and a file that is opened is not changed. If a crash leaves part of a new file, the file is made anew if it is empty and refused if it ends within header or filter.", "quantifier": "all headers, data files, hash functions, layouts and file contents; all damage within 32 bits; all lengths at which a crash cuts a new file", "why_tests_cant": "The tests open an index they just wrote; they do not damage the headers, cut a new file at each length or pair the index with another data file in every way.", "anchors": ["crates/storage/src/archive/digest_index/index.rs: HdxHeader, HdxIndex::open_hdx_file", "crates/storage/src/archive/digest_index/odx_header.rs: OdxHeader, open_odx_file", "crates/storage/src/archive/crc.rs: add_crc32, check_crc"]}
{"id": "C123", "title": "Saving and looking up in a bucket, byte by byte", "statement": "Whatever the two files of a digest index hold, a lookup in a bucket ends, and a position it gives is written next to that very key on a page that passed its checksum. After any saves to a bucket, with other buckets adding to the same overflow file in between, and once the bucket is written, a lookup of any key gives the position of its last save, and says that the key is not there exactly if it was never saved. A page changed within 32 consecutive bits, a bucket that is not in the file and a link that does not go backwards never lead to a wrong position: what comes before is found, everything else is reported as a checksum failure. In a new index nothing is found; in one that a crash cut while it was made, a bucket that is not whole is reported as damaged. A split distributes all entries of its bucket if nothing is damaged, and reports a damaged page. A lookup panics only over a page that counts more entries than fit and yet passes its checksum.", "quantifier": "all file contents, keys, histories of saves with other buckets' overflow in between, key and page sizes, and all damage within 32 bits", "why_tests_cant": "The tests save and load distinct keys in a well-formed index; corrupted chains are a few hand-made ones.", "anchors": ["crates/storage/src/archive/digest_index/bucket_iter.rs: BucketIter, HdxIndex::next_bucket_element", "crates/storage/src/archive/digest_index/index.rs: HdxIndex::save_to_bucket_buffer, fetch_position, remove_bucket, save_bucket_cache, split_one_bucket"]}
{"id": "C124", "title": "The position index, byte by byte", "statement": "The file of a position index stands for a list of values. A save appends the value at the next number and is refused at every other; a load gives the value of its number, or that there is none; iterating gives the first values in order and, reversed, the last ones newest first, and then ends; cutting at a number keeps exactly the values up to it and never adds any. If a crash leaves any prefix of the file that has the header, opening it again gives exactly the values that are whole in it, and later saves continue there; opening for reading only refuses a broken end. A damaged header and the index of another data file are refused; an entry of a pack's index that was changed within 32 consecutive bits is never read as another one.", "quantifier": "all lists of values of the three kinds, all numbers and limits, all lengths at which a crash cuts the file, all damage within 32 bits", "why_tests_cant": "The tests use long files of one kind and a few cuts; they do not cut at every byte or combine cuts with iteration and further saves.", "anchors": ["crates/storage/src/archive/position_index/index.rs: PdxHeader, PositionIndex, PositionIter, PosIndexValue", "crates/storage/src/consensus_pack.rs: IndexPositions"]}
{"id": "C125", "title": "The filter of a digest index, byte by byte", "statement": "A digest that was added to the filter is reported as contained, whatever is added before and after and also after the filter was written and read again; exactly those digests are reported whose eight bits each belong to some added one. Adding sets those eight bits and no other; no access is out of bounds; a filter is read from disk exactly if it has the right number of bytes.", "quantifier": "all sequences of digests, all sizes of the filter that are powers of two (up to 512 MiB), all bytes read", "why_tests_cant": "A single missed digest makes a saved output unfindable; the tests add some random digests.", "anchors": ["crates/storage/src/archive/digest_index/bloom.rs: Bloom::{new, accrue, contains, data}, TryFrom<Vec<u8>> for Bloom"]}
{"id": "C36", "title": "A signature given for one purpose is never valid for another", "statement": "Header votes, consensus results, epoch records, seed shares, proofs of possession and node records are signed as byte strings that determine both the purpose and every field of what is signed: no signature an honest validator gave verifies for a message of another kind or with other content.", "quantifier": "all pairs of messages of all kinds with arbitrary well-formed contents", "why_tests_cant": "a clash would need two encodings that coincide; examples cannot rule one out", "anchors": ["crates/types/src/crypto/intent.rs: IntentMessage, Intent::consensus, Intent::epoch_boundary, Intent::randomness_seed", "crates/types/src/primary/block.rs: ConsensusResult::digest_data", "crates/types/src/primary/mod.rs: Digest, INTENT_MESSAGE_LENGTH", "crates/types/src/crypto/mod.rs: to_intent_message", "crates/types/src/crypto/bls_signature.rs: construct_proof_of_possession_message", "crates/network-libp2p/src/types.rs: NodeRecord"]}
{"id": "C37", "title": "A consensus header's digest commits to the whole chain of outputs below it", "statement": "Two consensus chains whose tip headers have the same digest and number contain the same outputs at every number: same sub-dag headers in the same order, reputation scores, timestamps and randomness.", "quantifier": "all pairs of chains of any length, of committees of one size", "why_tests_cant": "needs injectivity of the digest input for all contents and induction over the chain", "anchors": ["crates/types/src/primary/block.rs: ConsensusHeader::digest_from_parts", "crates/types/src/primary/output.rs: CommittedSubDag::digest"]}
{"id": "C38", "title": "A node record's two layouts are never confused", "statement": "Bytes written in the current layout are never accepted as the legacy layout and vice versa; a record read back through the compatible decoder equals the one written, and signature verification is over exactly the bytes of the layout the record arrived in.", "quantifier": "all records of both layouts", "why_tests_cant": "the decoder tries layouts in turn; only a proof over all contents excludes an accidental parse", "anchors": ["crates/network-libp2p/src/types.rs: NodeRecord, NetworkInfo"]}
{"id": "C39", "title": "Database keys sort in the order of what they stand for", "statement": "The byte keys of the tables indexed by round and authority sort in the order of the rounds and then the other component, and different keys have different bytes, so range scans by key return rounds in numeric order.", "quantifier": "all rounds, identifiers and digests", "why_tests_cant": "little-endian encodings agree with numeric order on small samples", "anchors": ["crates/types/src/codec.rs: encode_key", "crates/storage/src/stores/certificate_store.rs"]}
{"id": "C40", "title": "Every node builds the same consensus output from the same committed sub-dag, with nothing left out", "statement": "An output built for a committed sub-dag contains, header by header and in payload order, exactly the batches the headers name, attributed to the headers' authors, with matching digests at matching positions; if any batch or author is missing no output is built; two nodes whose workers returned honest batches build equal outputs.", "quantifier": "all sub-dags, including repeated batches, and all honest fetch results of any two nodes", "why_tests_cant": "repeated digests and the remove-from-map bookkeeping only matter for particular payloads", "anchors": ["crates/consensus/executor/src/subscriber.rs: fetch_batches", "crates/types/src/primary/output.rs: ConsensusOutput"]}
{"id": "C41", "title": "Executing an output yields exactly one block per batch, in order, on the right state", "statement": "A successfully executed output appends one block per batch in output order, each with the number, parent, recipient, time, randomness, base fee, gas limit and worker the output prescribes, whose state is the parent's state after the consensus root (first block only), the batch's decodable transactions once and in order with invalid ones skipped, and the closing calls exactly in the last block of a closing output; an empty output adds no block unless it closes the epoch; the context re-read from a stored block equals the original one.", "quantifier": "all outputs, chain states, EVM behaviours and transaction contents", "why_tests_cant": "needs all interleavings of invalid, undecodable and repeated content", "anchors": ["crates/engine/src/payload_builder.rs: execute_consensus_output", "crates/tn-reth/src/env/execution.rs: build_block_from_batch_payload", "crates/tn-reth/src/evm/config.rs: context_for_block", "crates/tn-reth/src/evm/block.rs: assemble_block"]}
{"id": "C42", "title": "An output is executed completely or not at all, with the same result on every node", "statement": "If executing an output fails at any block or at any persist attempt, no block of it is durable, none stays visible in memory and the head served is the one before (if only the final notification fails, all of its blocks are durable); two successful executions from the same state give the same chain whatever transient faults occurred.", "quantifier": "all outputs and all fault patterns (build fault at any block, persist outcome at each attempt, closed channel)", "why_tests_cant": "the fault may hit any of the blocks or attempts", "anchors": ["crates/engine/src/payload_builder.rs: execute_consensus_output, persist_output_with_retry, rollback_in_memory_output"]}
{"id": "C43", "title": "A node obtains exactly the batches it asked for, whatever its peers answer, and finishes as soon as each was once in reach", "statement": "Fetching the batches of a committed sub-dag ends only when there is a batch for every requested digest; each returned batch hashes to the digest it is filed under; only requested batches are written to the batch table, under their digests; a malformed, unrequested or repeated answer discards everything that peer sent. If each requested batch is at some attempt in the local tables or held by a connected peer that follows the protocol, the fetch completes. A responder sends each requested batch it holds exactly once.", "quantifier": "all requests, table contents, sets of peers (each answering anything), numbers of passes and attempts", "why_tests_cant": "peers are adversarial and the batches may become available one at a time in any order", "anchors": ["crates/consensus/worker/src/batch_fetcher.rs: fetch_for_primary, get_batches_local", "crates/consensus/worker/src/network/handle.rs: request_batches, read_sync_batches", "crates/consensus/worker/src/network/stream_codec.rs: send_sync_batches_over_stream"]}
{"id": "C44", "title": "A worker counts its own batch as stored by a quorum exactly when that is so; batch validation accepts exactly the acceptable batches", "statement": "The acknowledgement collection succeeds only if the worker and distinct members that accepted the batch hold a quorum, and fails with a rejection, an anti-quorum or a timeout only for the stated reason; once all have answered it succeeds exactly if the accepting members and the worker are a quorum. Validation accepts a batch exactly if its digest, worker, epoch, base fee, size, transaction types and total gas are right, and nodes with the same epoch parameters agree.", "quantifier": "all committees of at least two members, all answers in all orders, all batches", "why_tests_cant": "needs every order of answers and every combination of failures", "anchors": ["crates/consensus/worker/src/quorum_waiter.rs: verify_batch, waiter", "crates/batch-validator/src/validator.rs: validate_batch"]}
{"id": "C45", "title": "Every batch of a certified header is valid, and enough honest members hold it", "statement": "With at most f faulty members: everything an honest member's batch tables contain under a digest is a valid batch with that digest; every batch digest in a certifiable header has exactly one preimage, which passes validation, although certified batches are fetched without validation; at least f+1 honest members have proposed or voted for the header and each of them that has not crashed in this epoch holds all its batches; the same holds for an own batch from the moment its digest is handed to the primary.", "quantifier": "all committees, faulty members' messages, interleavings of reports, prefetches, syncs, fetches, votes and proposals, and crashes at any point keeping any part of the tables", "why_tests_cant": "a global property over all members' histories; the crash that separates payload mark and batch is a rare schedule", "anchors": ["crates/consensus/worker/src/network/handler.rs: process_report_batch", "crates/consensus/worker/src/network/primary.rs: synchronize", "crates/consensus/worker/src/worker.rs: seal", "crates/consensus/primary/src/state_sync/header_validator.rs: sync_header_batches", "crates/storage/src/composite_db.rs"]}
{"id": "C46", "title": "The digest index of the archive is a map", "statement": "Looking up a digest in the archive's digest index returns the position given by the last save of that digest, and nothing exactly when it was never saved, whatever bucket splits, overflow pages and filter bits the saves caused; no sequence of saves panics. After a crash inside a sync that split no bucket (or after its header was written) every digest of the last completed sync is still found, also after any later saves.", "quantifier": "every hash function, filter, number of initial buckets, growth threshold, sequence of saves, set of buckets written before the crash and saves after it", "why_tests_cant": "Needs millions of keys to reach splits of split buckets, arbitrary hash collisions and every crash point of a sync.", "anchors": ["crates/storage/src/archive/digest_index/index.rs: HdxIndex::save, load, sync, split_one_bucket, hash_to_bucket, save_to_bucket_buffer, open_hdx_file", "crates/storage/src/archive/digest_index/bloom.rs: Bloom", "crates/storage/src/archive/digest_index/bucket_iter.rs: BucketIter"]}
{"id": "C47", "title": "A buffered archive file behaves like a byte array", "statement": "Reads, writes, seeks, flushes and truncations on an archive file give exactly the results of the same calls on a plain byte array with a cursor: buffering is invisible, no call panics, and what is on disk at any moment is a prefix of the bytes written since the last truncation, all of them after a flush.", "quantifier": "every initial content, buffer sizes and sequence of calls with any sizes", "why_tests_cant": "Buffer boundary cases depend on the alignment of every earlier call.", "anchors": ["crates/storage/src/archive/data_file.rs: DataFile::open, read, write, flush, seek, set_len"]}
