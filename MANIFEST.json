{
 "claims": [
  {
   "property": "C01",
   "status": "proved",
   "theorems": [
    "Verif.Committee.thresholds_exact",
    "Verif.Committee.quorum_intersection",
    "Verif.Committee.quorums_share_honest",
    "Verif.Committee.quorum_meets_validity",
    "Verif.Committee.validity_has_honest",
    "Verif.Committee.honest_reach_quorum",
    "Verif.Committee.quorumThresholdOf_eq"
   ],
   "note": ""
  },
  {
   "property": "C02",
   "status": "proved",
   "theorems": [
    "Verif.Certificate.newInternal_ok_iff",
    "Verif.Certificate.newInternal_signers",
    "Verif.Certificate.newInternal_unknown",
    "Verif.Certificate.newUnverified_sound",
    "Verif.Certificate.verifyCert_sound",
    "Verif.Certificate.validateAndVerify_sound",
    "Verif.Certificate.assembled_verifies"
   ],
   "note": "signature scheme abstract"
  },
  {
   "property": "C03",
   "status": "proved",
   "theorems": [
    "Verif.VotesAgg.append_cert_sound",
    "Verif.VotesAgg.append_cert_complete",
    "Verif.VotesAgg.append_repeat_rejected"
   ],
   "note": ""
  },
  {
   "property": "C04",
   "status": "proved",
   "theorems": [
    "Verif.CertsAgg.released_exact",
    "Verif.CertsAgg.append_exact",
    "Verif.CertsAgg.released_nodup",
    "Verif.CertsAggMgr.rounds_independent",
    "Verif.CertsAggMgr.rounds_independent_gc",
    "Verif.CertsAggMgr.gc_exact"
   ],
   "note": ""
  },
  {
   "property": "C05",
   "status": "proved",
   "theorems": [
    "Verif.System.certified_unique",
    "Verif.System.certificates_unique",
    "Verif.System.verified_certified",
    "Verif.System.honest_voter",
    "Verif.System.certified_checked",
    "Verif.System.certified_universe",
    "Verif.System.agreement",
    "Verif.System.Example.certified_example",
    "Verif.Joint.stored_unique",
    "Verif.Joint.stores_certified",
    "Verif.Joint.Example.run"
   ],
   "note": "at most f faulty members; signature unforgeability as World.NotForged"
  },
  {
   "property": "C06",
   "status": "proved",
   "theorems": [
    "Verif.Voting.vote_once",
    "Verif.Voting.vote_ascending",
    "Verif.Voting.vote_survives_crash",
    "Verif.Voting.cached_reply_matches",
    "Verif.Voting.Example.voted_reachable",
    "Verif.Voting.Example.asked_reachable",
    "Verif.Voting.Example.second_refused"
   ],
   "note": ""
  },
  {
   "property": "C07",
   "status": "proved",
   "theorems": [
    "Verif.Voting.checks_exact",
    "Verif.Voting.request_from_author",
    "Verif.Voting.approved_checked",
    "Verif.Voting.vote_checked"
   ],
   "note": ""
  },
  {
   "property": "C08",
   "status": "proved",
   "theorems": [
    "Verif.Proposer.proposal_once",
    "Verif.Proposer.rounds_never_decrease",
    "Verif.Proposer.next_not_below_sent",
    "Verif.Proposer.proposal_survives_crash",
    "Verif.Proposer.Example.crash_and_repropose",
    "Verif.Proposer.Example.startup_read_failure_equivocates",
    "Verif.Proposer.Example.stale_parents_equivocate"
   ],
   "note": "assumptions in Act.Assumed; both are needed (witnesses)"
  },
  {
   "property": "C09",
   "status": "proved",
   "theorems": [
    "Verif.Proposer.requeue_exact",
    "Verif.Proposer.outstanding_sorted",
    "Verif.Proposer.committed_counted",
    "Verif.Proposer.acked_never_lost",
    "Verif.Proposer.Example.requeued",
    "Verif.Proposer.Example.committed_batch_requeued"
   ],
   "note": "committed_batch_requeued: a max-delay re-proposal of an already committed header makes its batches be queued again (duplicate inclusion, no loss)"
  },
  {
   "property": "C10",
   "status": "proved",
   "theorems": [
    "Verif.Bull.agreement",
    "Verif.Bull.agreement_at",
    "Verif.Bull.agreement_state",
    "Verif.Bull.agreement_any_epoch",
    "Verif.Bull.restart_forgets_table",
    "Verif.Bull.Fork.restart_can_fork",
    "Verif.Bull.Ex.setup",
    "Verif.Bull.Ex.some_run",
    "Verif.Joint.agreement",
    "Verif.Joint.agreement_now",
    "Verif.Joint.Example.run",
    "Verif.Sync.store_recoverable",
    "Verif.Bull.Retention.retention_can_fork"
   ],
   "note": "certificates as in structure Universe (one per author and round, quorum of parents). A restart must find the last final scores within the 1000 sub-dags recovery reads (FinalInWindow): restart_can_fork shows (scaled down) that agreement fails without it. A restart must also find the certificates above the horizon: store_recoverable proves it while certificates are at most 64 rounds above the horizon, retention_can_fork (real constants) shows that a restart during a stall of 18 rounds can fork. Before the seed-signature fork agreement holds for all but the randomness (agreement_any_epoch, legacy_randomness)"
  },
  {
   "property": "C100",
   "status": "proved",
   "theorems": [
    "Verif.Ntf.no_lost_wakeup",
    "Verif.Ntf.note_can_step",
    "Verif.Ntf.wakeup_comes",
    "Verif.Ntf.returned_genuine",
    "Verif.Ntf.sender_kept",
    "Verif.Ntf.count_bound",
    "Verif.Ntf.count_exact",
    "Verif.Ntf.nothing_leaks",
    "Verif.Ntf.waits_for_ever",
    "Verif.Ntf.run_race",
    "Verif.Ntf.empty0_init",
    "Verif.Ntf.raced_reach"
   ],
   "note": "the counter is an integer shown never negative, where the code uses a wrapping atomic; the 255 shards are one map (keys of different shards never interact); register_all, used only by tests, is not modelled. waits_for_ever: notify_read has no time-out of its own, so a call that comes after garbage collection ends only with its caller's"
  },
  {
   "property": "C101",
   "status": "proved",
   "theorems": [
    "Verif.Wex.restore_spec",
    "Verif.Wex.mem_tips",
    "Verif.Wex.ring_exact",
    "Verif.Wex.ring_behind",
    "Verif.Wex.restart_works",
    "Verif.Wex.ok_executed",
    "Verif.Wex.err_is_fork",
    "Verif.Wex.own_tip_accepted",
    "Verif.Wex.blocked_only_behind",
    "Verif.Wex.returns_when_reached",
    "Verif.Wex.consensus_ok",
    "Verif.Wex.consensus_blocked",
    "Verif.Wex.remembered",
    "Verif.Wex.closing_block",
    "Verif.Wex.wrong_number",
    "Verif.Wex.Example.init0",
    "Verif.Wex.Example.life_reach",
    "Verif.Wex.Example.s1_ring",
    "Verif.Wex.Example.s1_restarted",
    "Verif.Wex.Example.answers",
    "Verif.Wex.Example.read_failure",
    "Verif.Wex.Example.split",
    "Verif.Wex.Example.skipped_forgotten",
    "Verif.Wex.Example.closing"
   ],
   "note": "findings: the ring is searched by hash only, so a header naming a recent hash under a lower number passes on nodes that have executed the block and is a fork for a node that only had to wait (wrong_number, Example.split): that node goes inactive or its follower dies; a failed database read is taken for a fork (Example.read_failure); a skipped output is forgotten after the capacity or a restart and a wait for it never ends (Example.skipped_forgotten)"
  },
  {
   "property": "C102",
   "status": "proved",
   "theorems": [
    "Verif.Rpc.occupied_le",
    "Verif.Rpc.permits_conserved",
    "Verif.Rpc.idle_full",
    "Verif.Rpc.leave_frees_nothing",
    "Verif.Rpc.answered_returned",
    "Verif.Rpc.malformed_costs_nothing",
    "Verif.Rpc.others_are_taken",
    "Verif.Rpc.wait_bounded",
    "Verif.Rpc.never_stuck",
    "Verif.Rpc.settled",
    "Verif.Rpc.work_bounded",
    "Verif.Rpc.answer_from_one_tip",
    "Verif.Rpc.answers",
    "Verif.Rpc.one_status",
    "Verif.Rpc.undefined_reverts",
    "Verif.Rpc.any_is_all",
    "Verif.Rpc.any_all_or_error",
    "Verif.Rpc.failures",
    "Verif.Rpc.stake_version",
    "Verif.Rpc.pop_message",
    "Verif.Rpc.pop_same_for_encodings",
    "Verif.Rpc.pop_binds",
    "Verif.Rpc.pop_length",
    "Verif.Rpc.demo_promise",
    "Verif.Rpc.demo_runs",
    "Verif.Rpc.busy_runs",
    "Verif.Rpc.busy_refused",
    "Verif.Rpc.busy_then",
    "Verif.Rpc.busy_served",
    "Verif.Rpc.busy_reach"
   ],
   "note": "the registry contract is not in the repository: its interface promise is the hypothesis of one_status, undefined_reverts and any_is_all, met by a concrete registry (demo_promise); ABI bytes and the BLS decompression are parameters; tokio's semaphore is fair (FIFO)"
  },
  {
   "property": "C103",
   "status": "proved",
   "theorems": [
    "Verif.Vrt.votes_in_order",
    "Verif.Vrt.round_gets_own_votes",
    "Verif.Vrt.delivered_or_lost",
    "Verif.Vrt.at_most_five",
    "Verif.Vrt.open_entry_gets_all",
    "Verif.Vrt.vote_with_entry",
    "Verif.Vrt.vote_opens_entry",
    "Verif.Vrt.vote_out_of_order",
    "Verif.Vrt.send_outcome",
    "Verif.Vrt.waiting_takes_nothing",
    "Verif.Vrt.never_waits",
    "Verif.Vrt.stuck_for_ever",
    "Verif.Vrt.record_fresh",
    "Verif.Vrt.record_takes_parked",
    "Verif.Vrt.record_again",
    "Verif.Vrt.orderly_loses_only_old",
    "Verif.Vrt.orderly_latest_has_entry",
    "Verif.Vrt.orderly_next_is_kept",
    "Verif.Vrt.early_vote_kept",
    "Verif.Vrt.orderly_example",
    "Verif.Vrt.lost_after_close",
    "Verif.Vrt.overtaken_record_has_no_round",
    "Verif.Vrt.rewritten_record_has_no_round",
    "Verif.Vrt.stuck_reachable"
   ],
   "note": "findings: a late vote for a round that has ended removes that epoch's entry, and if it was the last of the list the next epoch's early votes are lost (lost_after_close); a record overtaken on the watch gets no round (overtaken_record_has_no_round); a channel filled before its record stops the router for ever (stuck_for_ever, stuck_reachable)"
  },
  {
   "property": "C104",
   "status": "proved",
   "theorems": [
    "Verif.EDisk.read_is_own",
    "Verif.EDisk.no_gaps",
    "Verif.EDisk.first_wins",
    "Verif.EDisk.stays",
    "Verif.EDisk.saved_is_stored",
    "Verif.EDisk.failed_save_same",
    "Verif.EDisk.in_order",
    "Verif.EDisk.next_is_taken",
    "Verif.EDisk.restart_clears",
    "Verif.EDisk.restart_prefix",
    "Verif.EDisk.restart_no_tail",
    "Verif.EDisk.no_tail_example",
    "Verif.EDisk.persisted_stays",
    "Verif.EDisk.cert_stays",
    "Verif.EDisk.both_certified",
    "Verif.EDisk.cert_handed",
    "Verif.EDisk.flush_ok_told",
    "Verif.EDisk.queued_before",
    "Verif.EDisk.flush_durable",
    "Verif.EDisk.exRun_steps",
    "Verif.EDisk.exRun_ok",
    "Verif.EDisk.cert_stays_example",
    "Verif.EDisk.flush_durable_example",
    "Verif.EDisk.no_digest",
    "Verif.EDisk.cert_of_no_record",
    "Verif.EDisk.other_by_digest",
    "Verif.EDisk.lost_cert",
    "Verif.EDisk.error_stolen"
   ],
   "note": "the bytes of the files are C48's matter; start_epoch is 0. Findings: after a crash within the first persist a record is found by its epoch but never by its digest (no_digest); after a crash within the sync of a digest index an entry may point past the cut, so the certificate of that epoch counts as stored, cannot be saved again, and is later read as another epoch's certificate (lost_cert), likewise a record (other_by_digest); save of another record with its certificate reports success and files the certificate under a record that is not there (cert_of_no_record); persist reports success although a write queued before failed, when another task's call took the error (error_stolen)"
  },
  {
   "property": "C105",
   "status": "proved",
   "theorems": [
    "Verif.Pub.published_complete",
    "Verif.Pub.whole_without_crash",
    "Verif.Pub.published_truth",
    "Verif.Pub.published_importable",
    "Verif.Pub.published_stays",
    "Verif.Pub.published_durable",
    "Verif.Pub.exists_noop",
    "Verif.Pub.other_kept",
    "Verif.Pub.queue_bounded",
    "Verif.Pub.skip_exact",
    "Verif.Pub.export_succeeds",
    "Verif.Pub.increment_works",
    "Verif.Pub.late_lost",
    "Verif.Pub.goodRun_ok",
    "Verif.Pub.succeeds_example",
    "Verif.Pub.importable_example",
    "Verif.Pub.late_example",
    "Verif.Pub.torn_for_ever",
    "Verif.Pub.reordered_accepted"
   ],
   "note": "Two findings: a crash may leave a torn consensus pack under the final name for ever (torn_for_ever), because the copy is not synced before the rename; and only the last entry of an earlier bundle is checked (reordered_accepted). late_lost: an export the worker reaches after the tip has moved on is lost for good."
  },
  {
   "property": "C106",
   "status": "proved",
   "theorems": [
    "Verif.Mode.only_members_lead",
    "Verif.Mode.only_members_vote",
    "Verif.Mode.observer_stays",
    "Verif.Mode.no_panic",
    "Verif.Mode.role_is_right",
    "Verif.Mode.going_inactive",
    "Verif.Mode.leaving_inactive",
    "Verif.Mode.rejoin_caught_up",
    "Verif.Mode.inactive_was_member",
    "Verif.Mode.mode_fixed",
    "Verif.Mode.start_fresh",
    "Verif.Mode.entry_role",
    "Verif.Mode.catch_up_resolves",
    "Verif.Mode.one_source",
    "Verif.Mode.follower_has_sync",
    "Verif.Mode.flagged_batches",
    "Verif.Mode.life_example",
    "Verif.Mode.race_example",
    "Verif.Mode.outsider_example",
    "Verif.Mode.observer_votes_example",
    "Verif.Mode.inactive_seals_example"
   ],
   "note": "findings: inactivity is kept over the epoch's end, so a validator that is inactive when its committee ends acts as an inactive validator outside the committee, and its catch-up makes it active there until the epoch is entered again (outsider_example); votes and batches depend on the committee and not on the mode, so a member configured as an observer signs votes, and seals batches that nobody proposes (observer_votes_example, flagged_batches)"
  },
  {
   "property": "C107",
   "status": "proved",
   "theorems": [
    "Verif.Gsp.verify_accept",
    "Verif.Gsp.app_spares_relayer",
    "Verif.Gsp.right_content",
    "Verif.Gsp.honest_relayer_safe",
    "Verif.Gsp.honest_author_own",
    "Verif.Gsp.honest_effective_far",
    "Verif.Gsp.never_self",
    "Verif.Gsp.taken_genuine",
    "Verif.Gsp.hop",
    "Verif.Gsp.spreads",
    "Verif.Gsp.publishers_window",
    "Verif.Gsp.subscription",
    "Verif.Gsp.app_penalties_void",
    "Verif.Gsp.judged_once",
    "Verif.Gsp.spread_example",
    "Verif.Gsp.spreads_met",
    "Verif.Gsp.behind_charges",
    "Verif.Gsp.garbage_free",
    "Verif.Gsp.early_lost",
    "Verif.Gsp.relayer_pays_exempt",
    "Verif.Gsp.relayer_pays"
   ],
   "note": "findings: a node two or more epochs behind fatally charges honest validators of newer committees (behind_charges); while a node stays in an epoch the authors of everything it takes are exempt, so no penalty of the application for bad gossip has any effect (app_penalties_void, garbage_free); a message rejected before its author's identity is resolved is in the seen cache and is not taken when redelivered (early_lost)"
  },
  {
   "property": "C108",
   "status": "proved",
   "theorems": [
    "Verif.Bhd.same_epoch",
    "Verif.Bhd.committed_is_safe",
    "Verif.Bhd.quiet_is_retained",
    "Verif.Bhd.later_result",
    "Verif.Bhd.later_cert",
    "Verif.Bhd.old_is_quiet",
    "Verif.Bhd.effect",
    "Verif.Bhd.far_is_noticed",
    "Verif.Bhd.outputs_do_not_tell",
    "Verif.Bhd.c0_ok",
    "Verif.Bhd.life_example",
    "Verif.Bhd.hypotheses_met",
    "Verif.Bhd.slow_engine",
    "Verif.Bhd.own_output_alarms",
    "Verif.Bhd.lost_header",
    "Verif.Bhd.stuck_unnoticed"
   ],
   "note": "findings: until the engine has processed the first output of an epoch the node's own commits of that epoch do not count, so a node whose engine lags goes inactive on certificates and outputs it has itself committed (slow_engine, own_output_alarms); a header that is not found or not readable counts as nothing executed, so from epoch 2 on one failed read makes a node that has missed nothing inactive (lost_header); a node that stops short of an epoch's end and hears of every later output is not told by any of them (outputs_do_not_tell, stuck_unnoticed), only by certificates, which it takes from its own epoch's committee only"
  },
  {
   "property": "C109",
   "status": "proved",
   "theorems": [
    "Verif.Ptm.why",
    "Verif.Ptm.again_late",
    "Verif.Ptm.right_round",
    "Verif.Ptm.leader_included",
    "Verif.Ptm.votes_in",
    "Verif.Ptm.never_idle",
    "Verif.Ptm.in_time",
    "Verif.Ptm.in_time_tick",
    "Verif.Ptm.in_time_ready",
    "Verif.Ptm.catch_up_prompt",
    "Verif.Ptm.all_certs",
    "Verif.Ptm.waiting_reach",
    "Verif.Ptm.waits",
    "Verif.Ptm.gives_up",
    "Verif.Ptm.votes_count",
    "Verif.Ptm.ready_case",
    "Verif.Ptm.jump_case",
    "Verif.Ptm.again_case",
    "Verif.Ptm.forgotten",
    "Verif.Ptm.stale_timeout",
    "Verif.Ptm.min_not_kept",
    "Verif.Ptm.genesis_over_old"
   ],
   "note": "findings: readiness found while a header's task is under way is forgotten at its end, so a node with the certificates of all members waits for the maximal delay if no further certificate comes (forgotten); a maximal delay that ends during the task is charged to the next round, which is then proposed without waiting for its leader (stale_timeout); likewise the minimal delay (min_not_kept); a node that starts in the middle of an epoch makes its first header over the genesis certificates (genesis_over_old)"
  },
  {
   "property": "C11",
   "status": "proved",
   "theorems": [
    "Verif.Bull.committed_once",
    "Verif.Bull.author_rounds_increase",
    "Verif.Bull.one_per_author_round"
   ],
   "note": ""
  },
  {
   "property": "C110",
   "status": "proved",
   "theorems": [
    "Verif.Bls.standard_inverts",
    "Verif.Bls.gas_exact",
    "Verif.Bls.verify_exact",
    "Verif.Bls.call_answer",
    "Verif.Bls.call_out_of_gas",
    "Verif.Bls.call_too_long",
    "Verif.Bls.any_call",
    "Verif.Bls.answers_differ",
    "Verif.Bls.same_check",
    "Verif.Bls.same_check_bytes",
    "Verif.Bls.own_proof",
    "Verif.Bls.own_proof_call",
    "Verif.Bls.compressed_only",
    "Verif.Bls.proof_binds",
    "Verif.Bls.toy_ok",
    "Verif.Bls.toy_call",
    "Verif.Bls.toy_other"
   ],
   "note": "the curve and the ABI decoder are parameters with stated laws (Curve.Ok, Inverts), both met by concrete ones (toy_ok, standard_inverts); the registry's message is the one the code's comments give for the contract, whose source is not in the repository"
  },
  {
   "property": "C111",
   "status": "proved",
   "theorems": [
    "Verif.Gen.order_free",
    "Verif.Gen.everyone_in",
    "Verif.Gen.all_proved",
    "Verif.Gen.registry_agrees",
    "Verif.Gen.fees_right",
    "Verif.Gen.fees_accepted",
    "Verif.Gen.fees_order",
    "Verif.Gen.fees_in",
    "Verif.Gen.accounts_in",
    "Verif.Gen.accounts_win",
    "Verif.Gen.bad_proof_fails",
    "Verif.Gen.unreadable_fails",
    "Verif.Gen.done_inv",
    "Verif.Gen.example_done",
    "Verif.Gen.duplicates_depend_on_order",
    "Verif.Gen.nodes_unsigned",
    "Verif.Gen.same_address_passes",
    "Verif.Gen.registry_replaced",
    "Verif.Gen.single_torn"
   ],
   "note": "findings: of two files with one key one is dropped silently, which one depends on the directory's order (duplicates_depend_on_order); the proof covers key and address only, so the network nodes in a file can be changed by anybody who can write it (nodes_unsigned); the accounts file replaces system contracts silently (registry_replaced); a single validator makes the program panic after the genesis file is written (single_torn)"
  },
  {
   "property": "C112",
   "status": "proved",
   "theorems": [
    "Verif.Poll.wait_value",
    "Verif.Poll.wait_ends",
    "Verif.Poll.gives_up",
    "Verif.Poll.in_time",
    "Verif.Poll.instant_exact",
    "Verif.Poll.few_lookups",
    "Verif.Poll.certified_value",
    "Verif.Poll.certified_only",
    "Verif.Poll.certified_ends",
    "Verif.Poll.missing_late",
    "Verif.Poll.fatal_at_once",
    "Verif.Poll.fatal_reads",
    "Verif.Poll.certified_in_time",
    "Verif.Poll.few_attempts",
    "Verif.Poll.steady_reads",
    "Verif.Poll.stays_certs",
    "Verif.Poll.attempt_is_certified",
    "Verif.Poll.certified_rounds_up",
    "Verif.Poll.later_lookup_misses",
    "Verif.Poll.example_wait",
    "Verif.Poll.Ex.certified_meets",
    "Verif.Poll.Ex.certified_example"
   ],
   "note": "finding: the comment says that a save made before the deadline can be missed only during the first lookup; it can be missed during any lookup that is in flight when the deadline passes (later_lookup_misses). The wait for a certified record does not cut its sleep at the deadline (certified_rounds_up)"
  },
  {
   "property": "C113",
   "status": "proved",
   "theorems": [
    "Verif.Cap.fee_exact",
    "Verif.Cap.enforce_iff",
    "Verif.Cap.enforce_error",
    "Verif.Cap.charge_le",
    "Verif.Cap.every_transport",
    "Verif.Cap.capped",
    "Verif.Cap.let_through",
    "Verif.Cap.others_untouched",
    "Verif.Cap.never_laxer",
    "Verif.Cap.sometimes_stricter",
    "Verif.Cap.example_cap",
    "Verif.Cap.example_server"
   ],
   "note": "transactions that arrive by gossip do not pass this guard (the code says so); reth's own methods that sign with a local key are not modelled"
  },
  {
   "property": "C114",
   "status": "proved",
   "theorems": [
    "Verif.Keys.read_back",
    "Verif.Keys.other_fails",
    "Verif.Keys.none_fails",
    "Verif.Keys.read_back_plain",
    "Verif.Keys.padded",
    "Verif.Keys.authentic",
    "Verif.Keys.no_force",
    "Verif.Keys.generated",
    "Verif.Keys.pop_spec",
    "Verif.Keys.setRpc_spec",
    "Verif.Keys.history",
    "Verif.Keys.crash_fresh",
    "Verif.Keys.resolved",
    "Verif.Keys.env_spec",
    "Verif.Keys.confirmed",
    "Verif.Keys.no_need",
    "Verif.Keys.stale_wrapped",
    "Verif.Keys.stale_plain",
    "Verif.Keys.fails_after_write",
    "Verif.Keys.blank_lost",
    "Verif.Keys.empty_prompt_fails",
    "Verif.Keys.Ex.toy_ok",
    "Verif.Keys.Ex.toy_separate",
    "Verif.Keys.Ex.example_history"
   ],
   "note": "the cryptography is a parameter with stated laws (Crypto.Ok, Separate), met by a concrete one. Findings: --force leaves the key file of the other kind, so the node may then read the old key while node-info.yaml names the new one (stale_wrapped, stale_plain), and nothing compares the two when a node starts; the external addresses are checked after the keys are written (fails_after_write); standard input is trimmed, the environment is not (blank_lost); an empty passphrase at the prompt announces that none is set and then fails (empty_prompt_fails)"
  },
  {
   "property": "C115",
   "status": "proved",
   "theorems": [
    "Verif.Pst.next_written",
    "Verif.Pst.items_written",
    "Verif.Pst.items_all",
    "Verif.Pst.next_sound",
    "Verif.Pst.all_sound",
    "Verif.Pst.truncated",
    "Verif.Pst.every_cut",
    "Verif.Pst.memory",
    "Verif.Pst.few_items",
    "Verif.Pst.next_damaged",
    "Verif.Pst.damaged",
    "Verif.Pst.fetch_iff",
    "Verif.Pst.recordSize_iff",
    "Verif.Pst.genUid_inj",
    "Verif.Pst.load_written",
    "Verif.Pst.file_read",
    "Verif.Pst.header_damaged",
    "Verif.Pst.open_sound",
    "Verif.Pst.openFile_iff",
    "Verif.Pst.size_undetected",
    "Verif.Pst.out_of_step",
    "Verif.Pst.written_unreadable",
    "Verif.Pst.newer_stream_opened",
    "Verif.Pst.Ex.coding_ok",
    "Verif.Pst.Ex.bad_near",
    "Verif.Pst.Ex.damaged_example",
    "Verif.Pst.Ex.file_example",
    "Verif.Crc.check_value",
    "Verif.Crc.valid_iff",
    "Verif.Crc.burst",
    "Verif.Crc.detects"
   ],
   "note": "the checksum is the concrete CRC-32. Findings: a changed size word can be undetected, even by one bit (size_undetected); after a size over the limit the iterator goes on inside the record, all callers stop (out_of_step); a value over the limit is written without complaint (written_unreadable); a stream of a newer version is opened although the comment says it is rejected (newer_stream_opened); a cut within a size word is a clean end (truncated)"
  },
  {
   "property": "C116",
   "status": "proved",
   "theorems": [
    "Verif.Comp.reads_latest",
    "Verif.Comp.persist_disk",
    "Verif.Comp.persist_answers",
    "Verif.Comp.gone_quiet",
    "Verif.Comp.quiet_iff",
    "Verif.Comp.all_or_nothing",
    "Verif.Comp.failures_stay",
    "Verif.Comp.Ex.cross_torn",
    "Verif.Comp.Ex.abandoned_stored",
    "Verif.Comp.Ex.clones_apart",
    "Verif.Comp.Ex.failing_torn",
    "Verif.Comp.Ex.busy_hyps",
    "Verif.Comp.Ex.twins",
    "Verif.Layered.disk_whole"
   ],
   "note": "the threads are alive (send never fails). Findings: a transaction over tables of two databases can be torn by a crash (cross_torn; none in the repository does this); an abandoned transaction is stored (abandoned_stored), so a batch response with one bad batch leaves the ones before it in the store; clones made before the first write are transactions of their own (clones_apart); a failed write does not abort its transaction, the rest is committed (failing_torn)"
  },
  {
   "property": "C117",
   "status": "proved",
   "theorems": [
    "Verif.Dial.asked_once",
    "Verif.Dial.one_place",
    "Verif.Dial.answered_once",
    "Verif.Dial.answer_about_peer",
    "Verif.Dial.step_true",
    "Verif.Dial.log_grows",
    "Verif.Dial.never_self",
    "Verif.Dial.failure_told",
    "Verif.Dial.success_told",
    "Verif.Dial.timeout_told",
    "Verif.Dial.queue_worked_off",
    "Verif.Dial.heartbeat_discovery",
    "Verif.Dial.discovered_one_address",
    "Verif.Dial.exchange_bounded",
    "Verif.Dial.eligible_means",
    "Verif.Dial.canDial_eq",
    "Verif.Dial.toDialing_eq",
    "Verif.Dial.toDisconnected_eq",
    "Verif.Dial.toConnected_eq",
    "Verif.Dial.second_call_drops_first",
    "Verif.Dial.late_failure_fails_next_call",
    "Verif.Dial.queued_dial_overwrites_ban",
    "Verif.Dial.queued_dial_frees_ip",
    "Verif.Dial.heartbeats_overshoot",
    "Verif.Dial.refused_peer_takes_place"
   ],
   "note": "the swarm and the verdict peer_banned are the environment. Findings: of two calls queued together for one peer the first never gets an answer (second_call_drops_first); the late failure of a dial given up fails the next call for the peer (late_failure_fails_next_call); a dial queued before a ban overwrites it and frees the ip (queued_dial_overwrites_ban, queued_dial_frees_ip); heartbeats run in a row dial beyond the target (heartbeats_overshoot); discovery draws temporarily banned peers (refused_peer_takes_place)"
  },
  {
   "property": "C118",
   "status": "proved",
   "theorems": [
    "Verif.Resume.gate_iff",
    "Verif.Resume.rebuilt",
    "Verif.Resume.restored",
    "Verif.Resume.restorable",
    "Verif.Resume.failed",
    "Verif.Resume.after_load",
    "Verif.Resume.over_old",
    "Verif.Resume.importOver_none",
    "Verif.Resume.Ex.run",
    "Verif.Resume.Ex.refusals",
    "Verif.Resume.Ex.hyps",
    "Verif.Resume.Ex.hyps2",
    "Verif.Resume.Ex.own_pack_lost",
    "Verif.Resume.Ex.mixed_pack",
    "Verif.Resume.Ex.stale_tip"
   ],
   "note": "a panic (an output without primary headers, C54) and a failing file system are outside. Findings, all over a directory in which the consensus database was left while the execution database is fresh, which nothing refuses: a failed restore removes a whole pack of the epoch that it did not create (own_pack_lost); outputs of another chain are completed and reported as success, as only the tip is compared (mixed_pack); a different last record stays, uncertified, and success is reported (stale_tip)"
  },
  {
   "property": "C119",
   "status": "proved",
   "theorems": [
    "Verif.Bkd.answer_right",
    "Verif.Bkd.right_unique",
    "Verif.Bkd.agree",
    "Verif.Bkd.opened",
    "Verif.Bkd.by_round",
    "Verif.Bkd.Ex.os_ok",
    "Verif.Bkd.Ex.dropped",
    "Verif.Bkd.Ex.reopened",
    "Verif.Bkd.Ex.unopened"
   ],
   "note": "the trees of mdbx and redb are taken to be ordered maps with atomic transactions; I/O does not fail. Findings, all about the database in memory, which tests use in place of the others: a dropped transaction stays (Ex.dropped); opening a table again empties it (Ex.reopened); a write to a table that was not opened is lost without an error, where mdbx fails and redb makes the table (Ex.unopened)"
  },
  {
   "property": "C12",
   "status": "proved",
   "theorems": [
    "Verif.Bull.subdag_exact",
    "Verif.Bull.parents_first",
    "Verif.Bull.parents_committed"
   ],
   "note": "reachable means through certificates newer than their author's last committed one, which is what the code walks"
  },
  {
   "property": "C120",
   "status": "proved",
   "theorems": [
    "Verif.Health.in_turn",
    "Verif.Health.prompt",
    "Verif.Health.prompt_alone",
    "Verif.Health.answer_spec",
    "Verif.Health.fail_closed",
    "Verif.Health.path_of",
    "Verif.Health.poll_answered",
    "Verif.Health.length_named",
    "Verif.Health.workers_path",
    "Verif.Health.idle_holds_up",
    "Verif.Health.Ex.ascii_ok",
    "Verif.Health.Ex.split_request",
    "Verif.Health.Ex.any_method"
   ],
   "note": "writing the answer takes no time (the code sets no limit for it). Findings: each idle connection holds up all later ones for two seconds, the default time-out of a gateway's poll, so one such connection every two seconds keeps a node out of all gateways (idle_holds_up); a request that comes in two pieces gets the liveness answer (split_request); method and version are not looked at, although the comment says that a request line without a version yields no path (any_method)"
  },
  {
   "property": "C121",
   "status": "proved",
   "theorems": [
    "Verif.Cast.received",
    "Verif.Cast.all_without_lag",
    "Verif.Cast.lag_iff",
    "Verif.Cast.ended_iff",
    "Verif.Cast.next_message",
    "Verif.Cast.try_tells",
    "Verif.Cast.Ex.silent"
   ],
   "note": "tokio's channel is modelled by its documentation. recv does not tell its caller that messages are missing (Ex.silent); what the callers do about it is C66, C77 and C80's matter"
  },
  {
   "property": "C122",
   "status": "proved",
   "theorems": [
    "Verif.IdxFile.hdx_read_back",
    "Verif.IdxFile.odx_read_back",
    "Verif.IdxFile.hdx_damaged",
    "Verif.IdxFile.odx_damaged",
    "Verif.IdxFile.newHdx_sized",
    "Verif.IdxFile.open_written",
    "Verif.IdxFile.created_reopens",
    "Verif.IdxFile.open_own",
    "Verif.IdxFile.other_refused",
    "Verif.IdxFile.torn",
    "Verif.IdxFile.torn_odx",
    "Verif.IdxFile.zeros_refused",
    "Verif.IdxFile.filter_unchecked",
    "Verif.IdxFile.readonly_empty",
    "Verif.IdxFile.Ex.dh_sized",
    "Verif.IdxFile.Ex.new_sized"
   ],
   "note": "reading and writing fail only at the end of a file; a torn write leaves a prefix. Findings: the filter has no checksum, any bytes of its length are taken for it (filter_unchecked; with zeros every key looks absent), and a file cut after the filter is opened without the buckets behind the cut (torn); a file cut within header or filter, as a crash during creation leaves it, is refused at each later opening, and opening does not repair it (torn, torn_odx; an import of the whole epoch replaces the directory)"
  },
  {
   "property": "C123",
   "status": "proved",
   "theorems": [
    "Verif.Bkt.ends",
    "Verif.Bkt.sound",
    "Verif.Bkt.newest",
    "Verif.Bkt.damaged",
    "Verif.Bkt.bucket_damaged",
    "Verif.Bkt.looped",
    "Verif.Bkt.cut_is_absent",
    "Verif.Bkt.saved",
    "Verif.Bkt.history",
    "Verif.Bkt.panics",
    "Verif.Bkt.new_empty",
    "Verif.Bkt.new_cut",
    "Verif.Bkt.split_reads",
    "Verif.Bkt.Ex.split_drops",
    "Verif.Bkt.Ex.failed_split",
    "Verif.Bkt.Ex.keys_fit",
    "Verif.Bkt.Ex.grown",
    "Verif.Bkt.Ex.one_bit",
    "Verif.Bkt.Ex.lost_page",
    "Verif.Bkt.Ex.too_many"
   ],
   "note": "reading fails only beyond the end of a file; the filter, the distribution of a split's entries and the choice of the bucket are C46. Findings: if the overflow file ends before a page that is linked to, the keys behind the link are reported as never saved, not as damage (cut_is_absent, Ex.lost_page), and a split of such a bucket then drops them for good without an error (split_reads, Ex.split_drops); a split that fails over a damaged page has raised the number of buckets all the same, and keys that were found before are then looked for in a bucket that was never written (Ex.failed_split)"
  },
  {
   "property": "C124",
   "status": "proved",
   "theorems": [
    "Verif.PosFile.header_read_back",
    "Verif.PosFile.header_damaged",
    "Verif.PosFile.len_ofList",
    "Verif.PosFile.open_torn",
    "Verif.PosFile.other_refused",
    "Verif.PosFile.cut",
    "Verif.PosFile.saved",
    "Verif.PosFile.loaded",
    "Verif.PosFile.truncated",
    "Verif.PosFile.iterated",
    "Verif.PosFile.histories",
    "Verif.PosFile.u64_good",
    "Verif.PosFile.pair_good",
    "Verif.PosFile.positions_good",
    "Verif.PosFile.entry_damaged",
    "Verif.PosFile.Ex.hdr_sized",
    "Verif.PosFile.Ex.wrong_type"
   ],
   "note": "I/O fails only at the end of the file; what is buffered counts as in the file. Findings: a file that a crash cut within its 26 byte header is refused at each later opening (cut); the header does not say which kind of values follows, so that two positions are read as one pair, and plain positions have no checksum (Ex.wrong_type)"
  },
  {
   "property": "C125",
   "status": "proved",
   "theorems": [
    "Verif.Bloom.in_bounds",
    "Verif.Bloom.accrued",
    "Verif.Bloom.contains_iff",
    "Verif.Bloom.history",
    "Verif.Bloom.never_missed",
    "Verif.Bloom.read_iff",
    "Verif.Bloom.Ex.false_positive"
   ],
   "note": "C46 has the same filter as a set of bits; here it is the code's bytes. Only the first 24 bytes of a digest are used"
  },
  {
   "property": "C13",
   "status": "proved",
   "theorems": [
    "Verif.Bull.leader_rounds",
    "Verif.Bull.committed_round",
    "Verif.Bull.committed_round_mono"
   ],
   "note": ""
  },
  {
   "property": "C14",
   "status": "proved",
   "theorems": [
    "Verif.Bull.timestamp_ge_leader",
    "Verif.Bull.timestamps_mono",
    "Verif.Bull.timestamp_is_some_leaders"
   ],
   "note": ""
  },
  {
   "property": "C15",
   "status": "proved",
   "theorems": [
    "Verif.leader_total",
    "Verif.leader_spec",
    "Verif.good_bad_disjoint",
    "Verif.round_robin",
    "Verif.Bull.reachable_leader",
    "Verif.SwapTable.good_nonempty",
    "Verif.SwapTable.members"
   ],
   "note": "the draw among the good nodes is an arbitrary function of the round"
  },
  {
   "property": "C16",
   "status": "partial",
   "theorems": [
    "Verif.SwapTable.bad_below_good",
    "Verif.SwapTable.bad_count_partial",
    "Verif.SwapTable.bad_not_all",
    "Verif.SwapTable.bad_count_exceeded"
   ],
   "note": "the bound on the number of demoted members is false when more members than that have zero points (bad_count_exceeded); proved: it holds unless all demoted have zero points"
  },
  {
   "property": "C17",
   "status": "partial",
   "theorems": [
    "Verif.Bull.scores_spec_partial",
    "Verif.Bull.scores_mono",
    "Verif.Bull.scores_cover",
    "Verif.Bull.schedule_change_skipped"
   ],
   "note": "exact counting, monotonicity and reset at a committed window start are proved; that windows always restart on time is false when the leader of the boundary slot is not committed (schedule_change_skipped)"
  },
  {
   "property": "C18",
   "status": "proved",
   "theorems": [
    "Verif.Bull.seed_chain",
    "Verif.Bull.recover_fails_closed",
    "Verif.Bull.restart_succeeds"
   ],
   "note": "keccak fold abstract"
  },
  {
   "property": "C19",
   "status": "proved",
   "theorems": [
    "Verif.Fetch.collection_ok",
    "Verif.Fetch.one_bad_rejects_all",
    "Verif.Fetch.processFetched_ok",
    "Verif.Fetch.accepted_covered",
    "Verif.Fetch.interval_checked",
    "Verif.Fetch.leaf_checked",
    "Verif.Fetch.Example.accepted",
    "Verif.Fetch.Example.indirect_signature_unchecked",
    "Verif.Joint.batch_cert"
   ],
   "note": "digest acyclicity as a rank function; Joint.batch_cert: with at most f faulty members every certificate of an accepted batch is genesis or certified. Observation indirect_signature_unchecked: the aggregate signature of an indirectly verified certificate is never looked at"
  },
  {
   "property": "C20",
   "status": "proved",
   "theorems": [
    "Verif.Sync.causal_order",
    "Verif.Sync.handed_over_at_most_once_per_arrival",
    "Verif.Sync.not_lost",
    "Verif.Sync.not_stranded",
    "Verif.Sync.arrival",
    "Verif.Sync.gc_never_fails",
    "Verif.Sync.processBatch_reach",
    "Verif.Joint.links"
   ],
   "note": "garbage collection rounds read are assumed not to decrease; storage and channel errors not modelled; hash set iteration order arbitrary. A certificate that arrives again after acceptance is handed over again (Sync.Example.repeat_handed_over_again)"
  },
  {
   "property": "C21",
   "status": "proved",
   "theorems": [
    "Verif.Gossip.published_backed",
    "Verif.Gossip.published_honest",
    "Verif.Gossip.published_mono",
    "Verif.Gossip.published_source",
    "Verif.Gossip.table_bounded",
    "Verif.Gossip.signers_bounded",
    "Verif.Gossip.equivocation_bounded",
    "Verif.Gossip.no_eviction",
    "Verif.Gossip.enough_queued",
    "Verif.Gossip.touched_latest",
    "Verif.Gossip.touched_survives",
    "Verif.Gossip.TallyEx.noCollision",
    "Verif.Gossip.TallyEx.published",
    "Verif.Gossip.TallyEx.future_numbers_evict"
   ],
   "note": "handlers interleave at every lock release; no_eviction: equivocation about one number never evicts an honest tally. Known residual reproduced (future_numbers_evict): one faulty member signing made-up results for many future numbers evicts honest tallies (liveness of gossip only)"
  },
  {
   "property": "C22",
   "status": "proved",
   "theorems": [
    "Verif.Gas.penalty_no_overflow",
    "Verif.Gas.penalty_zero",
    "Verif.Gas.penalty_le_unused",
    "Verif.Gas.penalty_antitone_used",
    "Verif.Gas.penalty_mono_limit",
    "Verif.Gas.penalty_all_unused"
   ],
   "note": "observation burning_gas_can_be_cheaper: usage plus penalty is not monotone in usage"
  },
  {
   "property": "C23",
   "status": "proved",
   "theorems": [
    "Verif.Gas.fee_split",
    "Verif.Gas.settle_conserves",
    "Verif.Gas.settle_amounts",
    "Verif.Gas.system_exempt"
   ],
   "note": "revm's upfront charge and balance increment are modelled from their documented behaviour"
  },
  {
   "property": "C24",
   "status": "proved",
   "theorems": [
    "Verif.Gas.next_fee_exact",
    "Verif.Gas.next_fee_range",
    "Verif.Gas.next_fee_step",
    "Verif.Gas.next_fee_direction",
    "Verif.Gas.next_fee_mono_used",
    "Verif.Gas.static_fee",
    "Verif.Gas.saturated_step_exceeds_eighth"
   ],
   "note": "the step bound is fee/8 below a target of 2^63 gas and fee/8+1 above; the code comment's claim for the saturating regime is refuted by saturated_step_exceeds_eighth (harmless)"
  },
  {
   "property": "C25",
   "status": "proved",
   "theorems": [
    "Verif.Gas.counts_spec",
    "Verif.Gas.address_counts_spec",
    "Verif.Gas.address_counts_keys",
    "Verif.Gas.address_counts_sum",
    "Verif.Gas.address_counts_order",
    "Verif.Gas.clear_resets"
   ],
   "note": "fewer than 2^32 outputs per epoch"
  },
  {
   "property": "C26",
   "status": "proved",
   "theorems": [
    "Verif.Token.run_effect",
    "Verif.Token.governance_only",
    "Verif.Token.governance_or_role",
    "Verif.Token.value_only_burn",
    "Verif.Token.supply_accounted",
    "Verif.Token.claims_timelocked",
    "Verif.Token.claim_was_proposed",
    "Verif.Token.claim_available",
    "Verif.Token.coins_backed",
    "Verif.Token.burn_needs_seed",
    "Verif.Token.Example.run_logs",
    "Verif.Token.Example.run_example",
    "Verif.Token.Example.run_backed",
    "Verif.Token.Example.overflow_unbacked"
   ],
   "note": "keccak without collisions on the slots in use; revm's journal from its documentation. Caller means the frame's msg.sender (a DELEGATECALL by a contract governance called counts as governance). coins_backed needs the supply slot to cover the coins at the start, which no shipped genesis does: burn_needs_seed, overflow_unbacked. Faucet builds: supply_accounted and governance_or_role hold, the timelock does not apply"
  },
  {
   "property": "C27",
   "status": "proved",
   "theorems": [
    "Verif.Codec.header_roundtrip",
    "Verif.Codec.header_fromBytes",
    "Verif.Codec.header_prefix_free",
    "Verif.Codec.encHeader_inj",
    "Verif.Codec.encHeader_seen",
    "Verif.Codec.wrong_layout",
    "Verif.Codec.digest_identifies",
    "Verif.Codec.digest_roundtrip",
    "Verif.Codec.decoded_wf",
    "Verif.Codec.Golden.legacy_wire",
    "Verif.Codec.Golden.v1_wire",
    "Verif.Codec.Golden.legacy_read",
    "Verif.Codec.Golden.v1_read",
    "Verif.Codec.Golden.legacy_wf",
    "Verif.Codec.Golden.v1_wf",
    "Verif.Codec.Golden.parents_malleable"
   ],
   "note": "the model reproduces the repository's golden vectors byte for byte; the hash is any function without a collision on the two inputs. The reader accepts parents in any order (parents_malleable): the digest is of the canonical form"
  },
  {
   "property": "C28",
   "status": "proved",
   "theorems": [
    "Verif.Exec.closes_once",
    "Verif.Exec.empty_close_block",
    "Verif.Exec.empty_no_block",
    "Verif.Exec.OutEx.adiri_dup_never_closes",
    "Verif.Exec.BuildEx.executed"
   ],
   "note": "for outputs with as many batches as digests (assemble_even: every output built outside early adiri epochs). adiri_dup_never_closes: under the early-adiri duplicate rule a closing output with a repeated batch closes nothing"
  },
  {
   "property": "C29",
   "status": "proved",
   "theorems": [
    "Verif.Gas.recorded_eq_live",
    "Verif.Gas.entry_eq_live",
    "Verif.Gas.applied_entry_fees"
   ],
   "note": "hypothesis: an epoch's gas per worker fits in u64"
  },
  {
   "property": "C30",
   "status": "proved",
   "theorems": [
    "Verif.Gas.worker_roundtrip",
    "Verif.Gas.restart_eq_live"
   ],
   "note": "an output's blocks are persisted atomically (database transaction); output numbers and rounds strictly increase (C13)"
  },
  {
   "property": "C31",
   "status": "proved",
   "theorems": [
    "Verif.Bull.never_fails",
    "Verif.Bull.restart_succeeds",
    "Verif.Bull.dag_bounded",
    "Verif.Sync.store_recoverable",
    "Verif.Sync.restart_from_store",
    "Verif.Sync.RetEx.example_restart"
   ],
   "note": "that the certificate manager's store is causally complete above the horizon is store_recoverable (limit: 64 rounds)"
  },
  {
   "property": "C32",
   "status": "proved",
   "theorems": [
    "Verif.Bull.progress"
   ],
   "note": ""
  },
  {
   "property": "C33",
   "status": "proved",
   "theorems": [
    "Verif.Layered.persist_durable",
    "Verif.Layered.persist_answered"
   ],
   "note": ""
  },
  {
   "property": "C34",
   "status": "proved",
   "theorems": [
    "Verif.Layered.get_full_written",
    "Verif.Layered.get_full_removed",
    "Verif.Layered.get_drained",
    "Verif.Layered.get_crash",
    "Verif.Layered.retained_released",
    "Verif.Layered.cache_stale_read",
    "Verif.Layered.cache_failed_insert_lost",
    "Verif.Layered.full_removed_still_read"
   ],
   "note": "in cache mode a read between two writes of one key may return the older value, and an insert whose staging failed disappears (witnesses): the full-memory statements do not extend to cache mode"
  },
  {
   "property": "C35",
   "status": "proved",
   "theorems": [
    "Verif.CertStore.afterRound_exact",
    "Verif.CertStore.originsAfterRound_exact",
    "Verif.CertStore.highestRound_exact",
    "Verif.CertStore.lastTwoRoundsCerts_exact",
    "Verif.CertStore.lastRound_exact",
    "Verif.CertStore.nextRoundNumber_exact",
    "Verif.CertStore.readByIndex_exact",
    "Verif.CertStore.writeAll_exact",
    "Verif.CertStore.write_eq",
    "Verif.CertStore.gcRounds_ok",
    "Verif.CertStore.delete_ok",
    "Verif.CertStore.Reach.ok",
    "Verif.CertStore.Example.run",
    "Verif.Joint.uniq"
   ],
   "note": "certificates unique per author and round (Joint.uniq: holds in the joint system). Tables are ordered by key (big-endian key encoding); the write and the round garbage collection are separate transactions, both are steps of Reach, so a crash between them is covered"
  },
  {
   "property": "C36",
   "status": "proved",
   "theorems": [
    "Verif.Codec.signed_separated",
    "Verif.Codec.no_replay",
    "Verif.Codec.digestMsg_length"
   ],
   "note": "signature unforgeability as hypothesis of no_replay"
  },
  {
   "property": "C37",
   "status": "proved",
   "theorems": [
    "Verif.Codec.subDagPre_inj",
    "Verif.Codec.chain_commits",
    "Verif.Codec.chain_commits_suffix",
    "Verif.Codec.chain_of_number",
    "Verif.Codec.subDagPre_ambiguous"
   ],
   "note": "the number of headers is not part of the digest input: subDagPre_ambiguous shows why committees of one size (equally many reputation scores) are needed; the field extra is not covered by the digest"
  },
  {
   "property": "C38",
   "status": "proved",
   "theorems": [
    "Verif.Codec.legacy_not_current",
    "Verif.Codec.current_not_legacy",
    "Verif.Codec.compat_roundtrip",
    "Verif.Codec.verify_exact"
   ],
   "note": ""
  },
  {
   "property": "C39",
   "status": "proved",
   "theorems": [
    "Verif.Codec.beBytes_lt",
    "Verif.Codec.roundKey_lt",
    "Verif.Codec.originKey_lt",
    "Verif.Codec.roundKey_inj"
   ],
   "note": ""
  },
  {
   "property": "C40",
   "status": "proved",
   "theorems": [
    "Verif.Exec.assemble_complete",
    "Verif.Exec.assemble_incomplete",
    "Verif.Exec.assemble_agree",
    "Verif.Exec.assemble_even",
    "Verif.Exec.OutEx.assembled",
    "Verif.Exec.OutEx.honest",
    "Verif.Exec.OutEx.complete"
   ],
   "note": "Honest (each returned batch has the digest it is filed under) is C43; digest collision freedom as hypothesis"
  },
  {
   "property": "C41",
   "status": "proved",
   "theorems": [
    "Verif.Exec.batches_exact",
    "Verif.Exec.batches_states",
    "Verif.Exec.empty_no_block",
    "Verif.Exec.empty_close_block",
    "Verif.Exec.closes_once",
    "Verif.Exec.nonce_roundtrip",
    "Verif.Exec.difficulty_roundtrip",
    "Verif.Exec.replay_context",
    "Verif.Exec.mix_distinct",
    "Verif.Exec.junk_ignored",
    "Verif.Exec.invalid_skipped",
    "Verif.Exec.BuildEx.executed",
    "Verif.Exec.BuildEx.clean"
   ],
   "note": "the EVM is an arbitrary parameter"
  },
  {
   "property": "C42",
   "status": "proved",
   "theorems": [
    "Verif.Exec.all_or_nothing",
    "Verif.Exec.deterministic",
    "Verif.Exec.BuildEx.failed",
    "Verif.Exec.BuildEx.not_persisted"
   ],
   "note": "all_or_nothing: for outputs with enough digests (assemble_even) and known workers; the errors digestMissing and the inc_block panic are not rolled back in memory but are unreachable then"
  },
  {
   "property": "C43",
   "status": "proved",
   "theorems": [
    "Verif.Worker.exchange_sound",
    "Verif.Worker.request_exact",
    "Verif.Worker.fetch_exact",
    "Verif.Worker.exchange_complete",
    "Verif.Worker.request_gets",
    "Verif.Worker.fetch_completes",
    "Verif.Worker.fetched_honest",
    "Verif.Worker.FetchEx.example_run",
    "Verif.Worker.FetchEx.example_reaches"
   ],
   "note": "fetch_completes is for requests of at most 500 digests (the truncation bound of one request)"
  },
  {
   "property": "C44",
   "status": "proved",
   "theorems": [
    "Verif.Worker.quorum_outcome",
    "Verif.Worker.quorum_iff",
    "Verif.Worker.waiter_ack",
    "Verif.Worker.validate_iff",
    "Verif.Worker.validate_agrees",
    "Verif.Worker.single_member_antiquorum"
   ],
   "note": "single_member_antiquorum: with no other member the collection fails although one vote is a quorum (committees have at least two members); transaction decoding is a parameter"
  },
  {
   "property": "C45",
   "status": "proved",
   "theorems": [
    "Verif.Worker.stored_valid",
    "Verif.Worker.certified_valid",
    "Verif.Worker.certified_available",
    "Verif.Worker.sealed_available",
    "Verif.Worker.committed_fetchable",
    "Verif.Worker.AvailEx.example_certified",
    "Verif.Worker.AvailEx.crash_votes_without_batch",
    "Verif.Worker.AvailEx.crash_keeps_mark_only"
   ],
   "note": "digest without collisions; all workers of the epoch share id, epoch and base fee. Finding crash_votes_without_batch: after a crash the payload mark may survive without the batch (separate databases), the node then votes without the batch, so 'not crashed' is needed"
  },
  {
   "property": "C46",
   "status": "proved",
   "theorems": [
    "Verif.Hdx.index_is_map",
    "Verif.Hdx.index_absent",
    "Verif.Hdx.crash_keeps_synced",
    "Verif.Hdx.split_crash_loses",
    "Verif.Hdx.Ex.persisted_digest_lost"
   ],
   "note": "split_crash_loses is a finding: a crash between the bucket writes and the header write of a sync after a split permanently loses the moved digests of earlier outputs (lookups by digest miss them; lookups by number are unaffected), so 'no split' is needed. Checksums, torn pages and I/O errors are not modelled"
  },
  {
   "property": "C47",
   "status": "proved",
   "theorems": [
    "Verif.DataFile.file_is_array",
    "Verif.DataFile.crash_prefix"
   ],
   "note": "the operating system's calls succeed; read buffer of at least 2 bytes (16 KiB in the code)"
  },
  {
   "property": "C48",
   "status": "partial",
   "theorems": [
    "Verif.Pack.pack_holds_partial",
    "Verif.Pack.pack_save",
    "Verif.Pack.by_digest_sound",
    "Verif.Pack.by_digest_complete",
    "Verif.Pack.fetch_too_large",
    "Verif.Pack.dangling_entry",
    "Verif.Pack.Ex.run_with_crash",
    "Verif.Pack.Ex.window_reached"
   ],
   "note": "holds for every crash except one window, where it is false of the code (finding dangling_entry): nothing persisted yet, the first output being persisted, crash between the sync of the position index and the sync of the batch digests. Then the repaired pack keeps an index entry without data: the latest header is an error and saving that output again is silently ignored. Records over the size limit are written but unreadable (fetch_too_large)"
  },
  {
   "property": "C49",
   "status": "partial",
   "theorems": [
    "Verif.Chain.resume_partial",
    "Verif.Chain.numbers_consecutive",
    "Verif.Chain.save_refuses",
    "Verif.Chain.absSave_sound",
    "Verif.Chain.stuck",
    "Verif.Chain.renumbered",
    "Verif.Chain.Ex.crash_ok",
    "Verif.Chain.Ex.stuck_reached",
    "Verif.Chain.Ex.renumbered_reached"
   ],
   "note": "false of the code in two crash windows, both proved: (stuck) the slot file is written when the output is saved, before the pack is persisted; a crash in between leaves the slots ahead of the pack and no output of that epoch can ever be saved again, through any restarts; (renumbered) the pack with the first output of an epoch is persisted but its slot is not: the node finds the number of an output the pack already has, and the next output saved under it is silently dropped from the archive while it is executed. resume_partial: every other crash is fine"
  },
  {
   "property": "C50",
   "status": "partial",
   "theorems": [
    "Verif.Handoff.exactly_once_partial",
    "Verif.Handoff.agree_partial",
    "Verif.Handoff.exactly_once_smooth",
    "Verif.Handoff.lost_output",
    "Verif.Handoff.lost_output_after_failed_read",
    "Verif.Handoff.smooth_run",
    "Verif.Pipe.exactly_once",
    "Verif.Pipe.crash_prefix",
    "Verif.Pipe.agree",
    "Verif.Pipe.recovers",
    "Verif.Pipe.recovers_clean",
    "Verif.Pipe.deliveries",
    "Verif.Pipe.in_order_never_down",
    "Verif.Pipe.stuck_forever",
    "Verif.Pipe.Ex50.good_ends",
    "Verif.Pipe.Ex50.good_clean",
    "Verif.Pipe.Ex50.good_reach",
    "Verif.Pipe.Ex50.boundary_missed_stuck",
    "Verif.Pipe.Ex50.boundary_missed_down"
   ],
   "note": "the full statement is false of the code: lost_output - when a change of mode or the shutdown of the node cancels the wait for room in the channel to the engine, the output received is gone, and phase 1 of send_leftover_consensus_output_to_engine forwards what follows without the check of continuity; the skipped output is never executed, also after a restart (the same after a phase 2 that could not read an entry: lost_output_after_failed_read). Proved: exactly-once for every history in which phase 1 forwards only the next output (exactly_once_partial), and for every history without such a cancellation and early end (exactly_once_smooth). The Pipe theorems are about the coarser model in which the hand-over is one step, which Handoff refines. Recovery needs that a re-entry within an epoch never overlooks a boundary output already in the archive (recovers_clean); if it does, the node commits one more output of the ended epoch and no restart ever gets past it (stuck_forever, boundary_missed_stuck). The archive is taken as a list (C48, C49), execution of one output as one step (C42)"
  },
  {
   "property": "C51",
   "status": "proved",
   "theorems": [
    "Verif.Ep.accepted_honest",
    "Verif.Ep.certs_intersect",
    "Verif.Ep.compatible_spec",
    "Verif.Ep.valid_spec",
    "Verif.Ep.overlap_meets_small",
    "Verif.Ep.overlap_below_bound",
    "Verif.Ep.overlap_gap_unbounded",
    "Verif.Ep.disjoint_quorums",
    "Verif.Ep.Ex.honest"
   ],
   "note": "BLS unforgeability as hypothesis (SoundFor). Findings: the documented claim that the overlap of two certificates at the floor of a tolerated shrink meets the fault bound holds up to 18 members and fails at 19 -> 13 (overlap_below_bound), without limit (overlap_gap_unbounded); two tolerated shrinks can have disjoint quorums (disjoint_quorums)"
  },
  {
   "property": "C52",
   "status": "proved",
   "theorems": [
    "Verif.Ep.store_is_truth",
    "Verif.Ep.certified_is_truth",
    "Verif.Ep.number_to_epoch",
    "Verif.Ep.first_missing",
    "Verif.Ep.overwrite_keeps_old",
    "Verif.Ep.next_refused",
    "Verif.Ep.Ex.db2_reach",
    "Verif.Ep.Ex.honest"
   ],
   "note": "correct validators sign only true records, at most a third of each announced committee faulty, digests injective. Findings (outside the assumption that the node's own record is true): overwrite_keeps_old: the recovery path says it overwrote the node's differing record but the first record stays, and next_refused: then no later record is ever accepted"
  },
  {
   "property": "C53",
   "status": "proved",
   "theorems": [
    "Verif.Ep.collector_saves",
    "Verif.Ep.quorum_certifies",
    "Verif.Ep.solo_never_certifies",
    "Verif.Ep.Gate.forwarded_valid",
    "Verif.Ep.Gate.not_suppressed",
    "Verif.Ep.Ex.B_agg",
    "Verif.Ep.Ex.held_stable"
   ],
   "note": "solo_never_certifies is a finding: the only member of a committee never certifies. The routing of a forwarded vote to its collector (handle_new_vote) is not modelled"
  },
  {
   "property": "C54",
   "status": "proved",
   "theorems": [
    "Verif.Import.import_content",
    "Verif.Import.import_unique",
    "Verif.Import.import_extends",
    "Verif.Import.import_noop",
    "Verif.Import.import_complete",
    "Verif.Import.genesis_content",
    "Verif.Import.addresses_unchecked",
    "Verif.Import.empty_subdag_panics",
    "Verif.Import.Ex.chain1",
    "Verif.Import.Ex.prev_is_other_epoch",
    "Verif.Import.Ex.honest1",
    "Verif.Import.Ex.accepted",
    "Verif.Import.Ex.refused",
    "Verif.Import.Ex.genesis_poisoned",
    "Verif.Import.Ex.genesis_hyps",
    "Verif.Import.Ex.redirected",
    "Verif.Import.bytes_content",
    "Verif.Import.bytes_complete",
    "Verif.Import.bytes_other_epoch",
    "Verif.Import.bytes_clean",
    "Verif.Import.SEx.coding_ok",
    "Verif.Import.SEx.example_bytes"
   ],
   "note": "for epochs after the first; digests without collisions among the headers involved. Findings: in epoch 0 the first header's parent is not checked and a peer can put the header before genesis in place of header 1, for good (genesis_content, genesis_poisoned); the execution addresses in the meta data are checked against nothing, so blocks built from an imported pack can pay whomever the peer names (addresses_unchecked, redirected); a header with an empty sub-dag panics the import (empty_subdag_panics). bytes_*: the same for the stream of bytes the peer sends, through the framing of C115 (compression, message encoding as a lossless coding); the adiri rule for old epochs is not modelled"
  },
  {
   "property": "C55",
   "status": "proved",
   "theorems": [
    "Verif.Shuffle.assemble_total",
    "Verif.Shuffle.assemble_possible",
    "Verif.Shuffle.committee_uniform",
    "Verif.Shuffle.draws_suffice",
    "Verif.Shuffle.close_spec",
    "Verif.Shuffle.close_progress",
    "Verif.Shuffle.Ex.nodup",
    "Verif.Shuffle.Ex.some_draws",
    "Verif.Shuffle.Ex.possible",
    "Verif.Shuffle.Ex.twelve",
    "Verif.Shuffle.Ex.closed"
   ],
   "note": "validators have different addresses (hypothesis). The generator is the list of its draws; rand's choose_multiple is modelled from its documentation (reservoir sampling) as it is not in the repository. Equal likelihood is over uniform independent draws; the generator's quality and the seed are not modelled. The registry contract is arbitrary"
  },
  {
   "property": "C56",
   "status": "proved",
   "theorems": [
    "Verif.Net.counters_right",
    "Verif.Net.ip_blocked_sound",
    "Verif.Net.ip_blocked_complete",
    "Verif.Net.limits_after_close",
    "Verif.Net.close_forgets_oldest",
    "Verif.Net.dial_times_out",
    "Verif.Net.disconnect_of_banned_leaks",
    "Verif.Net.Ex.nat_legal",
    "Verif.Net.Ex.nat_clear",
    "Verif.Net.Ex.crowd_legal"
   ],
   "note": "for histories in which no graceful disconnect is requested for a record already marked banned (the code logs that as an error; disconnect_of_banned_leaks shows the counter then stays one too high). Scores are rationals, ties in the pruning order are broken by arrival"
  },
  {
   "property": "C57",
   "status": "proved",
   "theorems": [
    "Verif.Net.member_protected",
    "Verif.Net.penalty_exempt",
    "Verif.Net.committee_unbanned",
    "Verif.Net.member_banned_only_by_ip",
    "Verif.Net.rotation_drops_allowlist"
   ],
   "note": "finding rotation_drops_allowlist: an operator's peer that rotates its key while already connected under the new one loses its exemption"
  },
  {
   "property": "C58",
   "status": "proved",
   "theorems": [
    "Verif.Net.ban_begins",
    "Verif.Net.ban_lasts",
    "Verif.Net.ban_follows_identity",
    "Verif.Net.ban_ends",
    "Verif.Net.score_decays",
    "Verif.Net.pending_ban_carried",
    "Verif.Net.stuck_forever",
    "Verif.Net.Ex.cfg_sane",
    "Verif.Net.Ex.cfg_relaxes",
    "Verif.Net.Ex.ban_legal",
    "Verif.Net.Ex.stuck_legal",
    "Verif.Net.Ex.carried_legal"
   ],
   "note": "findings: stuck_forever: a peer that crossed only the disconnect threshold while connected is marked banned after the close and no heartbeat ever releases it; two of them block their address for good (Ex.stuck). Examples: a validator that left the committees is freed by the heartbeat after a fatal penalty, since the lockout counts from its last update (Ex.exValidator); a banned identity that connects under a new key before publishing its record keeps that connection (Ex.carried)"
  },
  {
   "property": "C59",
   "status": "proved",
   "theorems": [
    "Verif.Net.TempBan.timeout_bounded",
    "Verif.Net.TempBan.timeout_ends",
    "Verif.Net.TempBan.overflow_releases_oldest",
    "Verif.Net.TempBan.timeout_holds",
    "Verif.Net.Mgr.ban_blacklists",
    "Verif.Net.Mgr.unban_unblacks",
    "Verif.Net.Mgr.forgotten_unblacked",
    "Verif.Net.Mgr.blacklist_in_timeout",
    "Verif.Net.Mgr.timeout_end_clears_blacklist",
    "Verif.Net.Mgr.trusted_stays_blacklisted"
   ],
   "note": "findings: trusted_stays_blacklisted: a peer added by the operator is forgiven everywhere except on the gossip blacklist; timeout_end_clears_blacklist: the end of the time-out (10 minutes by default) emits Unbanned and takes a peer off the gossip blacklist while it is still banned (at least 30 minutes)"
  },
  {
   "property": "C60",
   "status": "proved",
   "theorems": [
    "Verif.Net.resolves_iff",
    "Verif.Net.keys_unique",
    "Verif.Net.outsider_record_is_local",
    "Verif.Net.outsider_lookup_dropped",
    "Verif.Net.member_takes_key",
    "Verif.Net.Ex.hijack_legal"
   ],
   "note": "finding member_takes_key: records carry no proof of possession of the network key, so a committee member can publish a record naming another validator's network key; the node then attributes that validator's connection to the member and drops the validator's record. Signature checks are not modelled: a record of key b is one whose BLS signature by b verified"
  },
  {
   "property": "C61",
   "status": "proved",
   "theorems": [
    "Verif.Tx.build_selection",
    "Verif.Tx.build_nonces",
    "Verif.Tx.left_out",
    "Verif.Tx.all_selected",
    "Verif.Tx.first_selected",
    "Verif.Tx.build_changed",
    "Verif.Tx.build_removed",
    "Verif.Tx.built_accepted_iff",
    "Verif.Tx.built_accepted",
    "Verif.Tx.empty_refused",
    "Verif.Tx.built_refused"
   ],
   "note": "the pool's order is an input (reth's BestTransactions with mark_invalid is modelled by skipping the sender). Findings: the builder measures the size in memory, the validators the encoded length, so a single transaction can be selected again and again and every such batch refused (built_refused); an empty batch is refused (empty_refused)"
  },
  {
   "property": "C62",
   "status": "proved",
   "theorems": [
    "Verif.Tx.asked_ok",
    "Verif.Tx.delivered_iff",
    "Verif.Tx.noEndpoint_iff",
    "Verif.Tx.rejected_only",
    "Verif.Tx.not_censored",
    "Verif.Tx.expired_after",
    "Verif.Tx.walk_effects",
    "Verif.Tx.first_asked",
    "Verif.Tx.batch_accounts",
    "Verif.Tx.verdict_sound",
    "Verif.Tx.batch_effects",
    "Verif.Tx.owner_unique",
    "Verif.Tx.owner_sender",
    "Verif.Tx.rotate_fair",
    "Verif.Tx.admitted_iff",
    "Verif.Tx.job_spec",
    "Verif.Tx.reach_ok",
    "Verif.Tx.asked_public",
    "Verif.Tx.demoted_unused",
    "Verif.Tx.rejection_iff",
    "Verif.Tx.delivery_iff",
    "Verif.Tx.unreachable_iff",
    "Verif.Tx.cutShort_sound",
    "Verif.Tx.demo_fates",
    "Verif.Tx.shared_endpoint"
   ],
   "note": "answers and budgets are arbitrary inputs per call. Findings: shared_endpoint: two keys that advertise one URL make one server's word count as two verdicts; the lift of a demotion after a delivery is unreachable (walk_effects, batch_effects)"
  },
  {
   "property": "C63",
   "status": "proved",
   "theorems": [
    "Verif.Tx.checkV4_iff",
    "Verif.Tx.checkV6_iff",
    "Verif.Tx.mapped_same",
    "Verif.Tx.checkDomain_iff",
    "Verif.Tx.checkDomain_dots",
    "Verif.Tx.target_public",
    "Verif.Tx.dialled_though_local"
   ],
   "note": "the URL parser is not modelled: a URL is its host. Finding dialled_though_local: 198.18/15, fec0::/10 and the local NAT64 prefix of RFC 8215 are dialled"
  },
  {
   "property": "C64",
   "status": "proved",
   "theorems": [
    "Verif.Tx.Life.nothing_lost",
    "Verif.Tx.Life.nothing_invented",
    "Verif.Tx.Life.epochEnd_loses_only",
    "Verif.Tx.Life.crash_keeps_own",
    "Verif.Tx.Life.lost_in_forward",
    "Verif.Tx.Life.lost_in_recovery",
    "Verif.Tx.Life.lost_at_start",
    "Verif.Tx.Life.lost_before_prune",
    "Verif.Tx.Life.good_calm",
    "Verif.Tx.Life.observer_calm"
   ],
   "note": "the conditions of the statement are needed: for each a run that loses transactions without it is proved (lost_in_forward, lost_in_recovery, lost_at_start, lost_before_prune). What reth's pool does on its own is an input, recorded as dropped"
  },
  {
   "property": "C65",
   "status": "proved",
   "theorems": [
    "Verif.Tx.Loop.one_at_a_time",
    "Verif.Tx.Loop.no_spin",
    "Verif.Tx.Loop.mined_continues",
    "Verif.Tx.Loop.backoff",
    "Verif.Tx.Loop.retries",
    "Verif.Tx.Loop.demo_history"
   ],
   "note": "consecutive: no pruned batch between them and each within the shorter of delay and cap plus one cap of the one before; the first delay is not capped in the code. Errors that end the loop end a history"
  },
  {
   "property": "C66",
   "status": "proved",
   "theorems": [
    "Verif.Exex.delivery_accounts",
    "Verif.Exex.no_marker_means_complete",
    "Verif.Exex.queue_bounded",
    "Verif.Exex.drained_then_delivered",
    "Verif.Exex.capacity_one_never_recovers",
    "Verif.Exex.closed_channel_inert",
    "Verif.Exex.exexes_isolated",
    "Verif.Exex.handle_run",
    "Verif.Exex.manager_delivery_accounts",
    "Verif.Exex.losses_reported"
   ],
   "note": "finding capacity_one_never_recovers: with capacity one (also what capacity zero is clamped to), after a single overflow nothing but Lagged markers ever reaches that ExEx again. The tokio channel is modelled as a bounded queue"
  },
  {
   "property": "C67",
   "status": "proved",
   "theorems": [
    "Verif.Exex.replay_shape",
    "Verif.Exex.replay_complete",
    "Verif.Exex.size_hint_honest",
    "Verif.Exex.Seam.no_silent_hole",
    "Verif.Exex.Seam.no_hole_at_start",
    "Verif.Exex.Seam.in_order",
    "Verif.Exex.Seam.delivered_committed",
    "Verif.Exex.Seam.delivered_once",
    "Verif.Exex.Seam.seam_exact",
    "Verif.Exex.Seam.seam_complete",
    "Verif.Exex.Seam.demo_seam",
    "Verif.Exex.Seam.demo_overlap",
    "Verif.Exex.Seam.demo_gap",
    "Verif.Exex.Seam.first_announcement_lost",
    "Verif.Exex.Seam.repeats_after_error",
    "Verif.Exex.Seam.start_beyond_tip"
   ],
   "note": "no silent hole: unless the manager's broadcast receiver overflowed before the manager had handled its first chain (first_announcement_lost shows the hole then is silent). Findings: repeats_after_error (after a replay error the live part may repeat replayed blocks), start_beyond_tip (blocks below a start beyond the tip are delivered)"
  },
  {
   "property": "C68",
   "status": "proved",
   "theorems": [
    "Verif.Exex.floor_exact",
    "Verif.Exex.floor_safe",
    "Verif.Exex.floor_monotone"
   ],
   "note": "reports lost on a full event channel do not occur in the history"
  },
  {
   "property": "C69",
   "status": "proved",
   "theorems": [
    "Verif.Exex.Merge.source_order",
    "Verif.Exex.Merge.no_starvation",
    "Verif.Exex.Merge.busy_shares"
   ],
   "note": "select_with_strategy is modelled as: flip the turn, poll that side, then the other"
  },
  {
   "property": "C70",
   "status": "proved",
   "theorems": [
    "Verif.Wire.message_received",
    "Verif.Wire.sequence_received",
    "Verif.Wire.truncated_rejected",
    "Verif.Wire.part_received",
    "Verif.Wire.run_deterministic",
    "Verif.Wire.run_exists",
    "Verif.Wire.no_endless_run",
    "Verif.Wire.can_go_on",
    "Verif.Wire.oversize_not_sent",
    "Verif.Wire.decoded_sound",
    "Verif.Wire.oversize_refused",
    "Verif.Wire.memory_bounded",
    "Verif.Wire.decompressed_bounded",
    "Verif.Wire.frame_ok",
    "Verif.Wire.frame_bytes",
    "Verif.Wire.request_ok",
    "Verif.Wire.trailing_ignored",
    "Verif.Wire.chunk_complete",
    "Verif.Wire.demo_ok"
   ],
   "note": "snappy's block compressor is arbitrary with an inverse and its documented worst case (demo_ok: this can be met); the frame format around it is modelled. Limits such that the worst case fits 32 bits. Finding trailing_ignored: anything may follow the compressed data within the body, so a message has many wire forms"
  },
  {
   "property": "C71",
   "status": "proved",
   "theorems": [
    "Verif.Wire.pack_transferred",
    "Verif.Wire.pack_complete",
    "Verif.Wire.pack_piece_bounded",
    "Verif.Wire.certs_transferred",
    "Verif.Wire.storage_error_aborts",
    "Verif.Wire.fetched_bounded",
    "Verif.Wire.batch_fits"
   ],
   "note": "certificates of at most 262133 encoded bytes (a larger one would make a frame over the limit). Timeouts end a reading at any point"
  },
  {
   "property": "C72",
   "status": "proved",
   "theorems": [
    "Verif.Fetch.writtenRounds_exact",
    "Verif.Fetch.request_read",
    "Verif.Fetch.answer_exact",
    "Verif.Fetch.answer_closed",
    "Verif.Fetch.accepted_bounded",
    "Verif.Fetch.answer_sound",
    "Verif.Fetch.collectOver_const",
    "Verif.Fetch.findNext_exact",
    "Verif.Fetch.own_request_refused",
    "Verif.Fetch.Demo.bitmap_ok",
    "Verif.Fetch.Demo.mine_run",
    "Verif.Fetch.Demo.theirs_run"
   ],
   "note": "the roaring bitmap is arbitrary with an inverse (Bitmap.Ok, met by Demo.bitmap_ok); answer_exact needs that no author has more rounds above the bound than the limit (1000). Finding own_request_refused: otherwise every peer refuses the request, since set_bounds does not observe the limit get_bounds enforces"
  },
  {
   "property": "C73",
   "status": "proved",
   "theorems": [
    "Verif.Fetch.wanted_is_fetched",
    "Verif.Fetch.target_kept",
    "Verif.Fetch.ancestors_recorded",
    "Verif.Fetch.other_epoch_ignored",
    "Verif.Fetch.one_at_a_time",
    "Verif.Fetch.next_request",
    "Verif.Fetch.startFetch_targets",
    "Verif.Fetch.Demo.mine_ok",
    "Verif.Fetch.Demo.theirs_ok"
   ],
   "note": ""
  },
  {
   "property": "C74",
   "status": "proved",
   "theorems": [
    "Verif.Fetch.Fan.fails_after_all",
    "Verif.Fetch.Fan.got_first_usable",
    "Verif.Fetch.Fan.not_stuck",
    "Verif.Fetch.Fan.ends",
    "Verif.Fetch.Fan.good_peer_suffices",
    "Verif.Fetch.Fan.any_answer_ends"
   ],
   "note": "finding any_answer_ends: an answer with one signed but useless certificate ends the round. The outer time limit (delay times peers plus two) may end a round earlier; then it reports an error and the fetcher starts over (C73)"
  },
  {
   "property": "C75",
   "status": "partial",
   "theorems": [
    "Verif.Probe.attempt_exact",
    "Verif.Probe.attempt_bounded",
    "Verif.Probe.attempt_caps",
    "Verif.Probe.starved",
    "Verif.Probe.served_if_early",
    "Verif.Probe.served_partial"
   ],
   "note": "the last sentence is false of the code: starved shows that three peers that deny each time, listed first, shut out every other peer, since the list is in the order of a hash map and denials are neither remembered nor penalised. served_partial proves it when fewer than three such peers are listed before the one that serves"
  },
  {
   "property": "C76",
   "status": "proved",
   "theorems": [
    "Verif.Admit.caps_hold",
    "Verif.Admit.decision_exact",
    "Verif.Admit.permit_iff",
    "Verif.Admit.permits_add_up",
    "Verif.Admit.all_returned",
    "Verif.Admit.not_stuck",
    "Verif.Admit.others_admitted"
   ],
   "note": "counters and semaphore are separate steps of each task; a drop happens at whatever end"
  },
  {
   "property": "C77",
   "status": "proved",
   "theorems": [
    "Verif.Follow.archive_true",
    "Verif.Follow.saved_in_order",
    "Verif.Follow.fails_only_by_loss",
    "Verif.Follow.cache_true",
    "Verif.Follow.epoch_respected",
    "Verif.Follow.drain_linked",
    "Verif.Follow.walk_end_fills",
    "Verif.Follow.stalled_walk_ahead",
    "Verif.Follow.gap_when_idle",
    "Verif.Follow.walk_descends",
    "Verif.Follow.recovers",
    "Verif.Follow.hole_needs_pack",
    "Verif.Follow.covered_iff",
    "Verif.Follow.ids_fresh",
    "Verif.Follow.release_exact",
    "Verif.Follow.reserve_exact",
    "Verif.Follow.reserve_fresh",
    "Verif.Follow.toy_ok"
   ],
   "note": "the header digest is collision free (World.Ok, met by toy_ok). hole_needs_pack shows the exception in the last sentence is real: a walk ends at the first height found in a pack, so a gap request cannot fill a hole below it"
  },
  {
   "property": "C78",
   "status": "proved",
   "theorems": [
    "Verif.Loop.Notice.all_told",
    "Verif.Loop.Notice.no_lost_wakeup",
    "Verif.Loop.Notice.told_before_woken",
    "Verif.Loop.Notice.sticks",
    "Verif.Loop.Notice.rearms",
    "Verif.Loop.Notice.no_false_alarm",
    "Verif.Loop.Notice.stays",
    "Verif.Loop.Notice.notify_ends",
    "Verif.Loop.Notice.late_plain",
    "Verif.Loop.Notice.late_sticky",
    "Verif.Loop.Notice.between"
   ],
   "note": "a noticer has one poller at a time, as its comment demands: of two tasks polling the same noticer only the last is woken"
  },
  {
   "property": "C79",
   "status": "proved",
   "theorems": [
    "Verif.Loop.Channel.exclusive",
    "Verif.Loop.Channel.panics_iff",
    "Verif.Loop.Channel.active_hears",
    "Verif.Loop.Channel.unheard",
    "Verif.Loop.Channel.always_keeps",
    "Verif.Loop.Channel.fifo",
    "Verif.Loop.Channel.bounded",
    "Verif.Loop.Channel.resubscribe",
    "Verif.Loop.Channel.leftovers",
    "Verif.Loop.Channel.gap",
    "Verif.Loop.Channel.second"
   ],
   "note": "leftovers: what one subscription leaves unread is delivered to the next; of the channels that live longer than an epoch this concerns epoch votes and requests for outputs"
  },
  {
   "property": "C80",
   "status": "partial",
   "theorems": [
    "Verif.Loop.Engine.order",
    "Verif.Loop.Engine.one_at_a_time",
    "Verif.Loop.Engine.bounded",
    "Verif.Loop.Engine.shutdown",
    "Verif.Loop.Engine.stream_closed",
    "Verif.Loop.Engine.exec_error",
    "Verif.Loop.Engine.returned_is_final",
    "Verif.Loop.Engine.own_steps_end",
    "Verif.Loop.Engine.some_branch",
    "Verif.Loop.Engine.never_stuck_partial",
    "Verif.Loop.Engine.at_rest_all_executed",
    "Verif.Loop.Engine.missed_notice",
    "Verif.Loop.Engine.missed_until",
    "Verif.Loop.Engine.shutdown_example",
    "Verif.Loop.Engine.error_example",
    "Verif.Loop.Engine.closed_example"
   ],
   "note": "the last clause is false of the code: missed_notice shows that a signal between the check at the top of the loop and the conditions of the select leaves the engine waiting for the next output only; never_stuck_partial proves that this is the only case, missed_until that the next output or the end of the channel ends it"
  },
  {
   "property": "C81",
   "status": "proved",
   "theorems": [
    "Verif.Loop.Seq.numbered",
    "Verif.Loop.Seq.saved_prefix",
    "Verif.Loop.Seq.saved_before_sent",
    "Verif.Loop.Seq.boundary",
    "Verif.Loop.Seq.bounded",
    "Verif.Loop.Seq.agree",
    "Verif.Loop.Seq.restart",
    "Verif.Loop.Seq.fetch_failed",
    "Verif.Loop.Seq.ended",
    "Verif.Loop.Seq.drain_complete",
    "Verif.Loop.Seq.never_stuck",
    "Verif.Loop.Seq.ordered_example",
    "Verif.Loop.Seq.drain_example"
   ],
   "note": "what a fetch gives is C40, what saving does C44 - C49; that consensus gives the sub-dags behind the last saved one after a restart is C49, C13"
  },
  {
   "property": "C82",
   "status": "proved",
   "theorems": [
    "Verif.Snapshot.roundtrip",
    "Verif.Snapshot.roundtrip_chunks",
    "Verif.Snapshot.verify_readable",
    "Verif.Snapshot.truncated",
    "Verif.Snapshot.bounded",
    "Verif.Snapshot.latched",
    "Verif.Snapshot.export_spec",
    "Verif.Snapshot.export_codes",
    "Verif.Snapshot.collect_last",
    "Verif.Snapshot.stream_ascending",
    "Verif.Snapshot.tail_ignored",
    "Verif.Snapshot.footer_tallies_ignored"
   ],
   "note": "the container below (checksums, sizes) is C47, C48: here a record that cannot be read is one. Findings: tail_ignored (anything may follow the footer), footer_tallies_ignored (of the footer's tallies only the number of accounts is compared)"
  },
  {
   "property": "C83",
   "status": "proved",
   "theorems": [
    "Verif.Snapshot.window_canonical",
    "Verif.Snapshot.blockhash_lookback",
    "Verif.Snapshot.gathered_accepted",
    "Verif.Snapshot.pairHash_injective",
    "Verif.Snapshot.pairChain_canonical"
   ],
   "note": "the EVM's rule (256 ancestors) is in the statement; that reth's BLOCKHASH reads the static header files is not modelled"
  },
  {
   "property": "C84",
   "status": "proved",
   "theorems": [
    "Verif.Snapshot.restored_state",
    "Verif.Snapshot.transfer",
    "Verif.Snapshot.loaded_certified",
    "Verif.Snapshot.honest_bundle",
    "Verif.Snapshot.noCollision_exists",
    "Verif.Snapshot.source_proper",
    "Verif.Snapshot.plain_diverges"
   ],
   "note": "the state root is a function of the view without collisions on finite states (noCollision_exists). The plain table, which the node reads, equals the hashed one, over which the root is computed, if no record repeats a slot or reth's history index refuses a repeated entry; plain_diverges shows that this code itself does not refuse it. reth's table writers are modelled from their documentation; the entry-readiness check is a predicate on state and block"
  },
  {
   "property": "C85",
   "status": "partial",
   "theorems": [
    "Verif.Snapshot.Datadir.floor_first",
    "Verif.Snapshot.Datadir.success",
    "Verif.Snapshot.Datadir.failure",
    "Verif.Snapshot.Datadir.used_kept_partial",
    "Verif.Snapshot.Datadir.rerun_loses_floor",
    "Verif.Snapshot.Datadir.failed_import_left",
    "Verif.Snapshot.Datadir.half_restored",
    "Verif.Snapshot.Datadir.stale_marker",
    "Verif.Snapshot.Datadir.stuck_unfloored",
    "Verif.Snapshot.Datadir.run_done"
   ],
   "note": "the last clause is false of the code: rerun_loses_floor shows that a second `db load-state` on a restored datadir, though refused, removes the floor marker. used_kept_partial proves the rest of the clause. failed_import_left, half_restored, stale_marker and stuck_unfloored show what the property does not cover: a datadir with only the genesis block, a crash between scaffold and import, a crash right after the marker, a removal that fails"
  },
  {
   "property": "C86",
   "status": "proved",
   "theorems": [
    "Verif.Kad.valid_iff",
    "Verif.Kad.held_authentic",
    "Verif.Kad.replaced_by_newer",
    "Verif.Kad.own_record_kept",
    "Verif.Kad.table_bounded",
    "Verif.Kad.restart_recounts",
    "Verif.Kad.refresh_accepted",
    "Verif.Kad.fresh_accepted_iff",
    "Verif.Kad.penalised_iff",
    "Verif.Kad.replica_not_penalised",
    "Verif.Kad.banned_not_stored",
    "Verif.Kad.bad_value_removed",
    "Verif.Kad.replay_after_expiry",
    "Verif.Kad.full_hides_newcomer",
    "Verif.Kad.one_peer_fills",
    "Verif.Kad.junk_stops_start",
    "Verif.Kad.absent_removal_overfills"
   ],
   "note": "signatures are a predicate on value and key. table_bounded: beyond the limit by at most the number of removals of keys that are not there (absent_removal_overfills shows this is needed). Findings: replay_after_expiry, full_hides_newcomer, one_peer_fills, junk_stops_start"
  },
  {
   "property": "C87",
   "status": "proved",
   "theorems": [
    "Verif.Kad.book_bounded",
    "Verif.Kad.bounded_length",
    "Verif.Kad.member_stays",
    "Verif.Kad.pinned_stays",
    "Verif.Kad.member_learned",
    "Verif.Kad.outsider_ignored",
    "Verif.Kad.pinned_set_back",
    "Verif.Kad.endpoints_clean",
    "Verif.Kad.update_looks_up",
    "Verif.Kad.one_lookup_per_key",
    "Verif.Kad.missing_asked",
    "Verif.Kad.ended_rearms",
    "Verif.Kad.running_tracks",
    "Verif.Kad.lookup_newest",
    "Verif.Kad.last_answer",
    "Verif.Kad.penalised_only"
   ],
   "note": "finding pinned_set_back: for members the operator provisioned time stamps are not compared, so any older record its owner signed that passes the record store sets its address back"
  },
  {
   "property": "C88",
   "status": "proved",
   "theorems": [
    "Verif.Kad.Prov.providers_good",
    "Verif.Kad.Prov.providers_bounded",
    "Verif.Kad.Prov.own_announcement_kept",
    "Verif.Kad.Prov.announce",
    "Verif.Kad.Prov.taken",
    "Verif.Kad.Prov.key_taken",
    "Verif.Kad.Prov.provided_own",
    "Verif.Kad.Prov.banned_not_provider",
    "Verif.Kad.Prov.restart_clean"
   ],
   "note": "finding key_taken: anybody may provide any key, so before the node has announced itself (or after an expiry) others can take its key"
  },
  {
   "property": "C89",
   "status": "proved",
   "theorems": [
    "Verif.Import.walk_exact",
    "Verif.Import.report_iff",
    "Verif.Import.report_exact",
    "Verif.Import.valid_imports",
    "Verif.Import.imported_valid",
    "Verif.Import.VEx.good",
    "Verif.Import.VEx.bad",
    "Verif.Import.VEx.valid_not_importable",
    "Verif.Import.VEx.invalid_imported",
    "Verif.Import.VEx.leftover_unseen"
   ],
   "note": "the documentation's `Valid: would import cleanly`, `Invalid: the importer would reject it` is false of the code (findings VEx.valid_not_importable, VEx.invalid_imported); `Importable` is what only the import looks at, and imported_valid needs headers numbered by their place (the import skips a repeated number)"
  },
  {
   "property": "C90",
   "status": "proved",
   "theorems": [
    "Verif.Blk.block_gas",
    "Verif.Blk.runTxs_ran",
    "Verif.Blk.runTxs_complete",
    "Verif.Blk.accepted_runs",
    "Verif.Blk.accepted_builds",
    "Verif.Blk.oversized_stops",
    "Verif.Blk.Ex.built",
    "Verif.Blk.Ex.accepts",
    "Verif.Blk.Ex.noError",
    "Verif.Blk.Ex.same",
    "Verif.Blk.Ex.gasLaw"
   ],
   "note": "the interpreter is a parameter; GasLaw: it uses no more gas than a transaction's limit. `oversized_stops`: without validation one transaction over the block limit makes the output impossible to execute"
  },
  {
   "property": "C91",
   "status": "proved",
   "theorems": [
    "Verif.Blk.close_plain",
    "Verif.Blk.close_fork",
    "Verif.Blk.close_other",
    "Verif.Blk.fork_fails_closed",
    "Verif.Blk.close_system",
    "Verif.Blk.preExec_frame",
    "Verif.Blk.fork_once",
    "Verif.Blk.sequence_by_epoch",
    "Verif.Blk.fees_are_record",
    "Verif.Blk.adiri_ok",
    "Verif.Blk.Ex.closed405",
    "Verif.Blk.Ex.closed406",
    "Verif.Blk.Ex.stopped406",
    "Verif.Blk.Ex.reach0",
    "Verif.Blk.Ex.keepsCode"
   ],
   "note": "KeepsCode: a system call does not replace the code of the two system contracts. An adiri build on a chain whose registry is not the pinned one stops for good at the close of epoch 406 (fork_fails_closed)"
  },
  {
   "property": "C92",
   "status": "proved",
   "theorems": [
    "Verif.Entry.enter_spec",
    "Verif.Entry.enter_agree",
    "Verif.Entry.enter_ok",
    "Verif.Entry.epochStateAtStart_spec",
    "Verif.Entry.start_unique",
    "Verif.Entry.start_exists",
    "Verif.Entry.readFees_guard",
    "Verif.Entry.retry_chainGlobal",
    "Verif.Entry.retry_exhausted",
    "Verif.Entry.reentry_idempotent",
    "Verif.Entry.applyEntryFees_fee",
    "Verif.Entry.range_spec",
    "Verif.Entry.range_at_start",
    "Verif.Entry.catchup_spec",
    "Verif.Entry.catchup_fresh",
    "Verif.Entry.setNumWorkers_length",
    "Verif.Entry.catchup_epoch",
    "Verif.Entry.catchup_leaders",
    "Verif.Entry.heal_spec",
    "Verif.Entry.members_spec",
    "Verif.Entry.members_truncates",
    "Verif.Entry.members_merges",
    "Verif.Entry.history_valid",
    "Verif.Entry.flaky_ok",
    "Verif.Entry.burn_does_not_move_the_epoch",
    "Verif.Entry.tip_read_differs",
    "Verif.Entry.history_start"
   ],
   "note": "the contract's documented behaviour (scalars written once, at the boundary) is the assumption `Valid`. Findings: arrays of unequal length are cut without an error (members_truncates), equal keys merge (members_merges); in epoch 0 the committee is whatever the local file says"
  },
  {
   "property": "C93",
   "status": "proved",
   "theorems": [
    "Verif.Tasks.shutdown_reaches_all",
    "Verif.Tasks.no_lost_wakeup",
    "Verif.Tasks.rearm_reaches_earlier",
    "Verif.Tasks.ends_iff",
    "Verif.Tasks.ended_notified",
    "Verif.Tasks.no_error_after_shutdown",
    "Verif.Tasks.watched_stays",
    "Verif.Tasks.spawn_watched",
    "Verif.Tasks.spawnVia_watched",
    "Verif.Tasks.spawnVia_untracked",
    "Verif.Tasks.untracked_forever",
    "Verif.Tasks.branch_decreases",
    "Verif.Tasks.turns_bound",
    "Verif.Tasks.critical_end_found",
    "Verif.Tasks.signal_ends",
    "Verif.Tasks.signal_lost_to_task",
    "Verif.Tasks.signal_lost_to_recv",
    "Verif.Tasks.signal_lost_unarmed",
    "Verif.Tasks.abort_ends_tracked",
    "Verif.Tasks.abort_misses_queue",
    "Verif.Tasks.update_abort",
    "Verif.Tasks.drop_ends_all",
    "Verif.Tasks.blocking_survives",
    "Verif.Tasks.example_run",
    "Verif.Tasks.example_signal_lost",
    "Verif.Tasks.example_bell"
   ],
   "note": "findings: an exit signal that arrives together with another ready branch is lost if the select takes that one (signal_lost_to_task, signal_lost_to_recv), and between two iterations nobody listens (signal_lost_unarmed); with 1000 tasks in the channel a critical task runs unwatched for good (untracked_forever); abort does not see the channel (abort_misses_queue); tasks on the blocking pool outlive the manager (blocking_survives)"
  },
  {
   "property": "C94",
   "status": "proved",
   "theorems": [
    "Verif.CertPack.flush_is_barrier",
    "Verif.CertPack.flush_is_barrier_clean",
    "Verif.CertPack.error_kept",
    "Verif.CertPack.error_latched",
    "Verif.CertPack.failed_repeats",
    "Verif.CertPack.flush_answered",
    "Verif.CertPack.get_digest",
    "Verif.CertPack.get_saved",
    "Verif.CertPack.contains_iff_get",
    "Verif.CertPack.offer_spec",
    "Verif.CertPack.stuck",
    "Verif.CertPack.hdx_load",
    "Verif.CertPack.hdx_save",
    "Verif.CertPack.Ex.example_barrier",
    "Verif.CertPack.Ex.example_hyps",
    "Verif.CertPack.Ex.example_error",
    "Verif.CertPack.Ex.index_ahead",
    "Verif.CertPack.Ex.cut_below_index",
    "Verif.CertPack.Ex.example_offer"
   ],
   "note": "the exceptions named in the statement are real: index_ahead and cut_below_index reach, in two ways, an index entry that leads to nothing, and stuck shows that a save of that digest then reports success and stores nothing while the pack is open; the split of a bucket is C46's finding"
  },
  {
   "property": "C95",
   "status": "proved",
   "theorems": [
    "Verif.Gate.global_bound",
    "Verif.Gate.global_bound_in_order",
    "Verif.Gate.global_refusal_justified",
    "Verif.Gate.allowed_bound",
    "Verif.Gate.client_bound",
    "Verif.Gate.client_bound_in_order",
    "Verif.Gate.client_refusal_justified",
    "Verif.Gate.conforming_never_refused",
    "Verif.Gate.table_bounded",
    "Verif.Gate.untracked_only_when_full",
    "Verif.Gate.probes_never_limited",
    "Verif.Gate.answers_accounted",
    "Verif.Gate.client_answers",
    "Verif.Gate.rise_sorted",
    "Verif.Gate.key_v4_iff",
    "Verif.Gate.key_v6_iff",
    "Verif.Gate.key_mapped",
    "Verif.Gate.key_families",
    "Verif.Gate.key_default",
    "Verif.Gate.prefix_checked",
    "Verif.Gate.flood_starves",
    "Verif.Gate.skew_unbounded",
    "Verif.Gate.full_table_unlimited",
    "Verif.Gate.Example.outcome_eq",
    "Verif.Gate.Example.reachable",
    "Verif.Gate.Example.keys",
    "Verif.Gate.Example.skew"
   ],
   "note": "token arithmetic exact, where the code uses f64. Findings: requests refused per IP still spend global tokens, so one client starves all (flood_starves); the clock is read before the lock, so readings out of order credit the same interval again (skew_unbounded); a full table leaves new clients unlimited (full_table_unlimited)"
  },
  {
   "property": "C96",
   "status": "proved",
   "theorems": [
    "Verif.Gproxy.request_story",
    "Verif.Gproxy.sent_at_most_once",
    "Verif.Gproxy.loop_broken",
    "Verif.Gproxy.outgoing_spec",
    "Verif.Gproxy.counted",
    "Verif.Gproxy.gauge_exact",
    "Verif.Gproxy.ready_is_last_poll",
    "Verif.Gproxy.only_its_poll_changes",
    "Verif.Gproxy.stop_ends_polls",
    "Verif.Gproxy.pollOne_iff",
    "Verif.Gproxy.forward_choice",
    "Verif.Gproxy.ready_probe",
    "Verif.Gproxy.screen_iff",
    "Verif.Gproxy.screen_passes",
    "Verif.Gproxy.recover_eq",
    "Verif.Gproxy.code_injective",
    "Verif.Gproxy.node_to_gateway",
    "Verif.Gproxy.cap_covers_request",
    "Verif.Gproxy.resolveLimit_spec",
    "Verif.Gproxy.Example.reachable",
    "Verif.Gproxy.Example.outcome",
    "Verif.Gproxy.Example.upstream_408_counted_twice",
    "Verif.Gproxy.Example.post_to_probe",
    "Verif.Gserve.connections_bounded",
    "Verif.Gserve.accept_enabled",
    "Verif.Gserve.nothing_after_break",
    "Verif.Gserve.drained_or_deadline",
    "Verif.Gserve.forced_leaves_open",
    "Verif.Gserve.accepts_after_signal",
    "Verif.Gserve.self_refused",
    "Verif.Gserve.other_port_allowed",
    "Verif.Gserve.dual_stack_slips",
    "Verif.Gserve.default_refused"
   ],
   "note": "JSON and HTTP bytes, the streaming of a response and the HTTP client's redirects are not modelled. Findings: an upstream's 408 is counted as forwarded and as rejected; a gateway for a worker other than 0 is never ready against this node; a listener on [::] lets localhost on its own port through"
  },
  {
   "property": "C97",
   "status": "proved",
   "theorems": [
    "Verif.Strm.exactly_one_place",
    "Verif.Strm.answered_once",
    "Verif.Strm.buffers_bounded",
    "Verif.Strm.answer_cause",
    "Verif.Strm.dropped_only_on_close",
    "Verif.Strm.poll_none_iff",
    "Verif.Strm.idle_waits_for_dials",
    "Verif.Strm.poll_enabled",
    "Verif.Strm.dials_disconnected",
    "Verif.Strm.dial_failure_tells_all",
    "Verif.Strm.waiting_bounded",
    "Verif.Strm.inbound_rate",
    "Verif.Strm.limited_means_flood",
    "Verif.Strm.report_reason",
    "Verif.Strm.unsupported_not_reported",
    "Verif.Strm.deadline_stops_at_dispatch",
    "Verif.Strm.second_dial",
    "Verif.Strm.foreign_failure",
    "Verif.Strm.first_addresses_only",
    "Verif.Strm.rate_bound_reached",
    "Verif.Strm.reconnect_resets_rate",
    "Verif.Strm.inbound_shed"
   ],
   "note": "the swarm and the transport are the environment. Findings: the fifteen seconds end at dispatch, not at the negotiation's end as documented (deadline_stops_at_dispatch); a call during a dial starts another (second_dial); anybody's dial failure fails opens whose own dial is under way (foreign_failure); a shared dial uses only the first caller's addresses (first_addresses_only); reconnecting resets the rate (reconnect_resets_rate); a full event buffer loses an inbound stream (inbound_shed)"
  },
  {
   "property": "C98",
   "status": "partial",
   "theorems": [
    "Verif.Crt.main_path_unique",
    "Verif.Crt.one_certificate_partial",
    "Verif.Crt.one_certificate_without_reproposal",
    "Verif.Crt.Example.normal_run",
    "Verif.Crt.Example.twice_run",
    "Verif.Crt.Example.two_certificates",
    "Verif.Crt.Example.orphan_run",
    "Verif.Crt.Example.orphan_no_repropose",
    "Verif.Crt.Example.restart_waits",
    "Verif.Crt.Example.init0"
   ],
   "note": "the full statement is FALSE of the code (Example.two_certificates): a header proposed again on expiry of the maximum delay can reach its second task after the first has recorded the certificate in memory only; the second publishes it, a crash loses the record, and a different certificate follows. Proved: uniqueness of what leaves by the main path, always; of everything, unless a certificate was published again before its record was on disk; of everything in runs without such a re-proposal"
  },
  {
   "property": "C99",
   "status": "proved",
   "theorems": [
    "Verif.Crt.externalized_sound",
    "Verif.Crt.main_path_on_disk",
    "Verif.Crt.main_path_epoch",
    "Verif.Crt.lock_exclusive",
    "Verif.Crt.collecting_unrecorded",
    "Verif.Crt.recv_cancels",
    "Verif.Crt.proposal_waits_for_disk",
    "Verif.Crt.recorded_never_processed",
    "Verif.Crt.vote_checked",
    "Verif.Crt.only_parents_sent",
    "Verif.Crt.retries_forever",
    "Verif.Crt.pause_monotone",
    "Verif.Crt.stranger_parents_refused",
    "Verif.Crt.Example.late_subscriber_blocks",
    "Verif.Crt.Example.early_subscriber_cancelled",
    "Verif.Crt.Example.old_header_reproposed",
    "Verif.Crt.Example.init9"
   ],
   "note": "findings: a task not yet polled when the next header arrives is not cancelled and holds the lock before the newer proposal (late_subscriber_blocks); a certificate on disk but not processed before a crash is never processed by the certifier afterwards (recorded_never_processed, Example.orphan_run); an old epoch's header is re-proposed on expiry of the maximum delay (old_header_reproposed)"
  }
 ]
}