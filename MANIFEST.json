{"claims": [
 {"property": "C01", "status": "proved", "theorems": ["Svr.Props.DB2.C01_mismatches_count_down", "Svr.Props.DB2.C01_at_most_n_pins_tested", "Svr.Props.DB2.C01_exhausted_never_ok"], "note": ""},
 {"property": "C02", "status": "proved", "theorems": ["Svr.Props.DB2.C02_responses_follow_vault", "Svr.Props.DB2.C02_restore_ok_iff"], "note": ""},
 {"property": "C03", "status": "proved", "theorems": ["Svr.Props.DB2.C03_not_restorable_before_expose"], "note": ""},
 {"property": "C04", "status": "proved", "theorems": ["Svr.Props.DB2Rows.C04_db2_isolation", "Svr.Props.DB3.C04_db3_isolation", "Svr.Props.DB4.C04_db4_isolation", "Svr.Props.DB5.C04_db5_isolation"], "note": ""},
 {"property": "C05", "status": "partial", "theorems": ["Svr.Props.DB2Rows.C05_db2_never_aborts", "Svr.Props.DB3.C05_db3_never_aborts", "Svr.Props.DB5.C05_db5_never_aborts", "Svr.Props.DB4.C05_db4_never_aborts", "Svr.Props.DB4.C05_db4_never_aborts_partial", "Svr.Props.DB4.C05_db4_short_id_ub"], "note": "SVR4: rows loaded are those streamed by other replicas; for arbitrary received rows the claim is false, a backup_id shorter than 16 bytes is undefined behaviour (C05_db4_short_id_ub)"},
 {"property": "C06", "status": "partial", "theorems": ["Svr.Props.DB2Rows.C06_db2_rollback_detected_partial", "Svr.Props.DB2Rows.C06_db2_size_field_ub", "Svr.Props.DB3.C06_db3_rollback_detected", "Svr.Props.DB5.C06_db5_rollback_detected", "Svr.Props.DB4.C06_db4_rollback_detected", "Svr.Props.DB4.C06_db4_create_accepts_tampered_counter"], "note": "SVR2: false of the code when the overwritten row has data_size > 48 (witness theorem C06_db2_size_field_ub). SVR4: Create with max_tries=0 does not verify the row and accepts a tampered counter (C06_db4_create_accepts_tampered_counter)"},
 {"property": "C07", "status": "proved", "theorems": ["Svr.Props.DB3.C07_evaluations_count_down"], "note": ""},
 {"property": "C08", "status": "proved", "theorems": ["Svr.Props.DB3.C08_evaluate_uses_created_key", "Svr.Props.DB3.C08_failed_evaluate_no_change"], "note": ""},
 {"property": "C09", "status": "proved", "theorems": ["Svr.Props.DB4.C09_restore1_counts_down"], "note": ""},
 {"property": "C10", "status": "proved", "theorems": ["Svr.Props.DB4.C10_restore2_uses_fresh_restore1", "Svr.Props.DB4.C10_shares_bounded"], "note": ""},
 {"property": "C11", "status": "partial", "theorems": ["Svr.Props.DB4.C11_share_after_valid_proof_partial", "Svr.Props.DB4.C11_version_zero_empty_share"], "note": "False for version 0 without a pending rotation: OK with an empty share (C11_version_zero_empty_share); proved for every other version"},
 {"property": "C12", "status": "proved", "theorems": ["Svr.Props.DB4.C12_start_keeps_old", "Svr.Props.DB4.C12_commit_keeps_new", "Svr.Props.DB4.C12_rollback_keeps_old", "Svr.Props.DB4.C12_only_rotation_changes_keys"], "note": ""},
 {"property": "C13", "status": "proved", "theorems": ["Svr.Props.DB4.C13_rotations_belong_to_accounts", "Svr.Props.DB4.C13_rotations_belong_to_accounts_partial", "Svr.Props.DB4.C13_truncated_target_version", "Svr.Props.DB4.C13_zero_rotation_not_hashed"], "note": "For replicas, which load rows streamed by replicas. A row with new_version = 2^32, which no replica emits, would break it (C13_truncated_target_version)"},
 {"property": "C14", "status": "proved", "theorems": ["Svr.Props.DB5.C14_download_latest_upload"], "note": ""},
 {"property": "C15", "status": "proved", "theorems": ["Svr.Props.DB2Rows.C15_db2_stream_reproduces", "Svr.Props.DB3.C15_db3_stream_reproduces", "Svr.Props.DB4.C15_db4_stream_reproduces", "Svr.Props.DB5.C15_db5_stream_reproduces"], "note": "SVR4: no received row has a new_version that is a non-zero multiple of 2^32 or an id shorter than 16 bytes (no replica emits such rows)"},
 {"property": "C16", "status": "partial", "theorems": ["Svr.Props.DB2Rows.C16_db2_load_only_appends", "Svr.Props.DB3.C16_db3_load_only_appends", "Svr.Props.DB4.C16_db4_load_only_appends_partial", "Svr.Props.DB5.C16_db5_load_only_appends", "Svr.Props.DB4.C05_db4_short_id_ub"], "note": "Proved for SVR2, SVR3 and SVR5 and every batch. SVR4: false of a batch with an id shorter than 16 bytes, which is read past its end (C05_db4_short_id_ub); for every batch that loading returns from, the claim holds"},
 {"property": "C17", "status": "proved", "theorems": ["Svr.Props.DB2Rows.C17_db2_hash_identifies", "Svr.Props.DB3.C17_db3_hash_identifies", "Svr.Props.DB4.C17_db4_hash_identifies", "Svr.Props.DB5.C17_db5_hash_identifies"], "note": "SVR4: no received row has a new_version that is a non-zero multiple of 2^32 or an id shorter than 16 bytes (no replica emits such rows)"},
 {"property": "C18", "status": "proved", "theorems": ["Svr.Props.DB2Rows.C18_db2_no_false_alarm", "Svr.Props.DB3.C18_db3_no_false_alarm", "Svr.Props.DB4.C18_db4_no_false_alarm", "Svr.Props.DB5.C18_db5_no_false_alarm"], "note": "SVR4: no received row has a new_version that is a non-zero multiple of 2^32 or an id shorter than 16 bytes (no replica emits such rows)"},
 {"property": "C19", "status": "partial", "theorems": ["Svr.Props.RowSize.C19_db5_row_size", "Svr.Props.RowSize.C19_db2_row_size_partial", "Svr.Props.RowSize.C19_db3_row_size_partial", "Svr.Props.RowSize.C19_db4_row_size_partial", "Svr.Props.RowSize.C19_db2_exceeds", "Svr.Props.RowSize.C19_db3_exceeds", "Svr.Props.RowSize.C19_db4_exceeds"], "note": "True for SVR5; false for SVR2, SVR3 and SVR4 (exceeds witnesses), with the true bounds proved"},
 {"property": "C20", "status": "proved", "theorems": ["Svr.Props.Merkle.C20_verify", "Svr.Props.Merkle.C20_only_last"], "note": "Every history permitted by the table of leaves; any node hash."},
 {"property": "C21", "status": "proved", "theorems": ["Svr.Props.Merkle.C21_stale_node", "Svr.Props.Merkle.C21_rollback"], "note": "Any contents of the hash arrays; no collision at the named inputs."},
 {"property": "C22", "status": "proved", "theorems": ["Svr.Props.Merkle.C22_safe", "Svr.Props.Merkle.C22_depth", "Svr.Props.Merkle.C22_slots", "Svr.Props.Merkle.C22_end"], "note": "CHECKs and invalid memory are distinct outcomes of the model."},
 {"property": "C23", "status": "partial", "theorems": ["Svr.Props.RaftLog.C23_window", "Svr.Props.RaftLog.C23_no_ub", "Svr.Props.RaftLog.C23_append_drops", "Svr.Props.RaftLog.C23_iterators", "Svr.Props.RaftLog.C23_drop_minimal_partial", "Svr.Props.RaftLog.C23_cancel_leaks_bytes", "Svr.Props.RaftLog.C23_bounds_needed", "Svr.Props.RaftLog.C23_next_idx_of_empty", "Svr.Props.RaftLog.C23_set_next"], "note": "All proved except dropping only when required: cancelled entries stay counted (C23_cancel_leaks_bytes), so that part is proved for runs without cancellation."},
 {"property": "C24", "status": "proved", "theorems": ["Svr.Props.Membership.C24_quorum_exists", "Svr.Props.Membership.C24_quorums_intersect", "Svr.Props.Membership.C24_quorums_intersect_across_change"], "note": "For fewer than 2^63 voters and super_majority below 2^63 (the code reads it from a uint32)."},
 {"property": "C25", "status": "proved", "theorems": ["Svr.Props.Membership.C25_progression_exact", "Svr.Props.Membership.C25_fromProto"], "note": ""},
 {"property": "C26", "status": "proved", "theorems": ["Svr.Props.RaftGroup.C26_one_leader_per_term"], "note": "For every reachable world of a group whose voters nobody asks to change; any delivery, loss, duplication and reordering of messages. With changes of the voters, election safety follows per configuration only; see C29."},
 {"property": "C27", "status": "proved", "theorems": ["Svr.Props.RaftNode.C27_entries_extend_chain", "Svr.Props.RaftNode.C27_first_entry_extends_chain", "Svr.Props.RaftNode.C27_same_hash_same_history"], "note": "Holds whatever messages arrive."},
 {"property": "C28", "status": "proved", "theorems": ["Svr.Props.RaftGroup.C28_committed_agree", "Svr.Props.RaftGroup.C28_applied_agree"], "note": "For every reachable world of a group whose voters nobody asks to change, at one time or two different times. Assumes no HMAC collision among the inputs hashed."},
 {"property": "C29", "status": "partial", "theorems": ["Svr.Props.RaftGroup.C29_committed_agree_partial", "Svr.Props.RaftGroup.C29_applied_agree_partial", "Svr.Props.RaftGroup.C29_false_without_super_majority"], "note": "Proved for super_majority >= 1 (when it is >= 2, the memberships requested with a single voter must have the same one). With super_majority 0, the value in the sample configuration, the property is false: C29_false_without_super_majority is a concrete schedule."},
 {"property": "C30", "status": "partial", "theorems": ["Svr.Props.RaftNode.C30_monotone_partial", "Svr.Props.RaftNode.C30_promised_entries_stay", "Svr.Props.RaftNode.C30_term_wraps", "Svr.Props.RaftNode.C30_commit_above_promise", "Svr.Props.RaftGroup.C30_indexes_in_order"], "note": "Terms wrap at 2^64 (C30_term_wraps), so monotonicity is proved for calls that keep counters below 2^64. For arbitrary messages the commit index can pass the promise index (C30_commit_above_promise)."},
 {"property": "C31", "status": "partial", "theorems": ["Svr.Props.RaftNode.C31_one_vote_per_term_partial", "Svr.Props.RaftNode.C31_vote_twice_after_wrap"], "note": "For runs that keep the term below 2^64; C31_vote_twice_after_wrap shows that this is needed."},
 {"property": "C32", "status": "proved", "theorems": ["Svr.Props.RaftNode.C32_in_order_once", "Svr.Props.RaftNode.C32_only_committed", "Svr.Props.RaftNode.C32_nothing_left"], "note": ""},
 {"property": "C33", "status": "partial", "theorems": ["Svr.Props.RaftMessages.C33_other_group_ignored", "Svr.Props.RaftMessages.C33_non_member_ignored", "Svr.Props.RaftMessages.C33_stale_term_changes_nothing", "Svr.Props.RaftMessages.C33_no_message_aborts_partial", "Svr.Props.RaftMessages.C33_overclaiming_ack_aborts", "Svr.Props.RaftMessages.C33_group_never_aborts", "Svr.Props.RaftMessages.C33_ack_beyond_log_aborts", "Svr.Props.RaftMessages.C33_two_lying_acks_abort", "Svr.Props.RaftMessages.C33_own_id_aborts", "Svr.Props.RaftMessages.C33_reset_of_own_id"], "note": "What is ignored is proved as stated. That no message aborts is false of the code: a member's acknowledgement of an index above the leader's log aborts the leader (C33_ack_beyond_log_aborts), two members reporting promises above it make the next TakeCommittedLog abort, and a message with the replica's own id as sender aborts, as does, in a candidate, the notice that a peer with its own id has connected. For one message from another replica the first is the only way (C33_no_message_aborts_partial), and in a group that runs this code no call aborts (C33_group_never_aborts). An election timeout of 0 is excluded: it is a division by zero."},
 {"property": "C34", "status": "partial", "theorems": ["Svr.Props.Replicate.C34_svr2_partial", "Svr.Props.Replicate.C34_svr3_partial", "Svr.Props.Replicate.C34_svr4_partial", "Svr.Props.Replicate.C34_svr5_partial", "Svr.Props.Replicate.C34_members", "Svr.Props.Replicate.C34_members_grow", "Svr.Props.Replicate.C34_joins_partial", "Svr.Props.Replicate.C34_truncated", "Svr.Props.Replicate.C34_reordered"], "note": "All interleavings of a joiner with a member that goes on applying entries; any chunk size, any number of pushes under way, pushes handled in any order, losses and time-outs. The promoted replica then has exactly a state of the member: database, limits, membership, log. Two rules are assumed that the code does not enforce: responses to pushes are handled in order, and the member's log still has the entries that were not sent yet. A concrete run that breaks either rule and ends with a wrong database is proved for each. C34_joins_partial links the result to the group model of C35/C36."},
 {"property": "C35", "status": "proved", "theorems": ["Svr.Props.Grid.C35_same_index_same_database", "Svr.Props.Grid.C35_changing_voters", "Svr.Props.Grid.C35_serial", "Svr.Props.Grid.C35_applies_what_is_committed"], "note": "Any database behind core's interface; every schedule of starts, joins, calls, registrations and committed entries. With changing voters for super_majority >= 1 (see C29). A joining replica starts from the sender's database; that replication delivers it is C34."},
 {"property": "C36", "status": "proved", "theorems": ["Svr.Props.Grid.C36_one_thread", "Svr.Props.Grid.C36_single_vault", "Svr.Props.Grid.C36_single_vault_changing_voters", "Svr.Props.Grid.C36_guess_limit", "Svr.Props.Grid.C36_guess_limit_changing_voters"], "note": "The whole group, SVR2. With changing voters for super_majority >= 1 (see C29)."},
 {"property": "C37", "status": "proved", "theorems": ["Svr.Props.LogTx.C37_told", "Svr.Props.LogTx.C37_at_most_once", "Svr.Props.LogTx.C37_not_registered", "Svr.Props.LogTx.C37_success_is_true", "Svr.Props.LogTx.C37_answered_when_committed", "Svr.Props.LogTx.C37_answered_when_removed", "Svr.Props.LogTx.C37_answered_in_time", "Svr.Props.LogTx.C37_late_is_never_answered"], "note": "What a transaction is told is its fate in the sequence of committed entries. C37_late_is_never_answered: a transaction registered after its entry was applied (possible for writes forwarded to the leader) waits until the replica is removed."},
 {"property": "C38", "status": "proved", "theorems": ["Svr.Props.E2E.C38_outcome", "Svr.Props.E2E.C38_unsent", "Svr.Props.E2E.C38_not_early", "Svr.Props.E2E.C38_times_out", "Svr.Props.E2E.C38_always_defined"], "note": "Every interleaving of sends, answers, resets, timer ticks and timeout closures (a closure may run long after the tick that took it out), for fewer than 2^64 requests (after that the request counter wraps). A callback taken out of the table counts as run: the thread that took it out calls it right after releasing the lock."},
 {"property": "C39", "status": "partial", "theorems": ["Svr.Props.Regroup.C39_regroup", "Svr.Props.Regroup.C39_sizes", "Svr.Props.Regroup.C39_complete", "Svr.Props.Regroup.C39_accepted_partial", "Svr.Props.Regroup.sound_of_reachable", "Svr.Props.Regroup.C39_false_small_minimum", "Svr.Props.Regroup.C39_requested_voters_exceed_maximum"], "note": "The sizes are proved for all configurations. That the change passes the membership rule is proved for super_majority < min_voting_replicas and false otherwise (C39_false_small_minimum), which ValidateRaftGroupConfig does not exclude. Voters added on request of their hosts are not limited by max_voting_replicas (C39_requested_voters_exceed_maximum)."},
 {"property": "C40", "status": "proved", "theorems": ["Svr.Props.Minimums.C40_update_exact", "Svr.Props.Minimums.C40_limits_ratchet", "Svr.Props.Minimums.C40_values_exact", "Svr.Props.Minimums.C40_later_limits_stricter", "Svr.Props.Minimums.C40_absent_value_passes", "Svr.Props.Minimums.C40_combine_sound", "Svr.Props.Minimums.C40_combine_rejects"], "note": ""},
 {"property": "C41", "status": "partial", "theorems": ["Svr.Props.Minimums.C41_two_in_flight_abort", "Svr.Props.Minimums.C41_every_replica_aborts", "Svr.Props.Minimums.C41_applicable_partial"], "note": "False when two updates are in flight (witness); proved when updates are requested one at a time."},
 {"property": "C42", "status": "partial", "theorems": ["Svr.Props.Peers.C42_attested", "Svr.Props.Peers.C42_keys", "Svr.Props.Peers.C42_fresh_partial", "Svr.Props.Peers.C42_minimums", "Svr.Props.Peers.C42_heard", "Svr.Props.Peers.C42_told", "Svr.Props.Peers.C42_total", "Svr.Props.Peers.C42_stale_until_the_clock_moves", "Svr.Props.Peers.C42_low_until_checked", "Svr.Props.Peers.C42_clock_overflow", "Svr.Props.Peers.C42_malformed_id"], "note": "All interleavings of threads at the granularity of peer locks. The age bound is proved after every update that moves the clock; an update that finds the clock unchanged returns early, so a shortened timeout is enforced only when the clock next moves (witness). Also witnessed: signed overflow for a clock near 2^63, and a CHECK failing on a malformed peer id from the host."},
 {"property": "C43", "status": "proved", "theorems": ["Svr.Props.Timeout.C43_fires_exactly_once", "Svr.Props.Timeout.C43_no_overflow", "Svr.Props.Timeout.C43_overflow_ub"], "note": "Scheduler of util::TickTimer-style timeouts; overflow of the 64-bit deadline is a distinct outcome, which no sequence of fewer than 2^61 calls with delays below 2^62 reaches (the code passes 32-bit delays)."},
 {"property": "C44", "status": "proved", "theorems": ["Svr.Props.GroupClock.C44_median_tolerates_minority", "Svr.Props.GroupClock.C44_last_reports"], "note": ""},
 {"property": "C45", "status": "partial", "theorems": ["Svr.Props.Noise.C45_encrypt_no_ub", "Svr.Props.Noise.C45_decrypt_no_ub", "Svr.Props.Noise.C45_round_trip", "Svr.Props.Noise.C45_tampering_rejected_partial", "Svr.Props.Noise.C45_empty_accepted", "Svr.Props.Noise.C45_cut_accepted_without_ad"], "note": "Round trip and absence of undefined behaviour for every input. Rejection of tampering for the traffic with associated data (peers): what is accepted is a prefix of what was sent, except for empty messages, which are accepted unauthenticated (C45_empty_accepted). For client traffic, sent without associated data, the property is false: C45_cut_accepted_without_ad."},
 {"property": "C46", "status": "proved", "theorems": ["Svr.Props.Socket.C46_no_abort", "Svr.Props.Socket.C46_in_order", "Svr.Props.Socket.C46_written", "Svr.Props.Socket.C46_all_delivered", "Svr.Props.Socket.C46_flush"], "note": ""},
 {"property": "C47", "status": "proved", "theorems": ["Svr.Props.Codec.C47_hex_decode_exact", "Svr.Props.Codec.C47_hex_roundtrip", "Svr.Props.Codec.C47_peerid"], "note": ""},
 {"property": "C48", "status": "partial", "theorems": ["Svr.Props.Codec.C48_base64_roundtrip", "Svr.Props.Codec.C48_decode_exact", "Svr.Props.Codec.C48_decode_safe_partial", "Svr.Props.Codec.C48_non_ascii_ub"], "note": "Round trip proved in full, and that a text is accepted exactly when it is base64 of the bytes returned; memory safety is false for bytes of 0x80 or more (C48_non_ascii_ub) and proved for ASCII texts."},
 {"property": "C49", "status": "partial", "theorems": ["Svr.Props.Clients.C49_ids", "Svr.Props.Clients.C49_session", "Svr.Props.Clients.C49_nonces", "Svr.Props.Clients.C49_attested_key", "Svr.Props.Clients.C49_paired", "Svr.Props.Clients.C49_own_row", "Svr.Props.Clients.C49_closed", "Svr.Props.Clients.C49_no_ub_partial", "Svr.Props.Clients.C49_guessed_id_ub", "Svr.Props.Clients.C49_rotation_undone", "Svr.Props.Clients.C49_stale_evidence", "Svr.Props.Clients.C49_log_exact", "Svr.Props.Clients.owned_db2", "Svr.Props.Clients.owned_db4"], "note": "All interleavings of threads at the granularity of locks. Ids are distinct for fewer than 2^64 clients. After a close, a thread that already has the client still answers; no other ever does (C49_closed). Public key and evidence stay paired, but a refresh that overlaps a rotation brings the old key back (witness). Memory safety needs a host that uses only ids it was told of: closing the next id while HandleNewClient still uses the plain pointer is a use after free (witness)."},
 {"property": "C50", "status": "partial", "theorems": ["Svr.Props.Config.C50_start_sound", "Svr.Props.Config.C50_stays_sound", "Svr.Props.Config.C50_no_zero_divisor", "Svr.Props.Config.C50_election_timeout_partial", "Svr.Props.Config.C50_huge_election_ticks_wrap"], "note": "False for election_ticks above 2^31, which is accepted: the random election timeout wraps (witness). Everything else is proved for all configurations"},
 {"property": "C51", "status": "partial", "theorems": ["Svr.Props.Rejoin.C51_agree_partial", "Svr.Props.Rejoin.C26_false_with_rejoin", "Svr.Props.Rejoin.C28_false_with_rejoin", "Svr.Props.Rejoin.C36_false_with_rejoin"], "note": "Proved while nobody joins again, for super_majority >= 1. False otherwise: HandleJoinRaft refuses only RAFTSTATE_LOADED_PART_OF_GROUP, so a replica that is behind can be a voter and be told to join again; it forgets its vote and its log. The _false_ theorems give a schedule made of exactly the requests core.cc makes, with two leaders in one term, conflicting commits and more PIN guesses than allowed."},
 {"property": "C52", "status": "proved", "theorems": ["Svr.Props.RaftLeaves.C52_frozen", "Svr.Props.RaftLeaves.C52_severed", "Svr.Props.RaftLeaves.C52_right", "Svr.Props.RaftLeaves.C52_rollback"], "note": "Detection is by the first eight bytes of the entry's hash: C52_rollback assumes the two entries differ there. The state may be any that has the shape the log code relies on. Term, vote and role are not guarded by any leaf, so the claim does not cover them."},
 {"property": "C53", "status": "partial", "theorems": ["Svr.Props.PeerSession.C53_in_order_partial", "Svr.Props.PeerSession.C53_nothing_made_up", "Svr.Props.PeerSession.C53_delivered", "Svr.Props.PeerSession.C53_empty_injected", "Svr.Props.PeerSession.C53_empty_changes_key"], "note": "Proved for all data that is not empty, and, as far as order, uniqueness and contents of what is handed on for data go, also with empty data among it (C53_nothing_made_up). That both ends stay in step holds only without empty data: it is accepted without any check (witness), handed on as an empty message, and counts towards the receiver's change of key, so that the host can bring the two ends out of step, which ends the session."},
 {"property": "C54", "status": "proved", "theorems": ["Svr.Props.Tpm2.C54_quotes_are_read_exactly", "Svr.Props.Tpm2.C54_no_two_quotes_look_alike", "Svr.Props.Tpm2.C54_signatures_are_read_exactly", "Svr.Props.Tpm2.C54_registers_are_read_exactly", "Svr.Props.Tpm2.C54_registers_are_those_quoted"], "note": "All byte strings."},
 {"property": "C55", "status": "partial", "theorems": ["Svr.Props.Sev.C55_table_is_read_exactly_partial", "Svr.Props.Sev.C55_lawful_tables_are_read_right", "Svr.Props.Sev.C55_end_wraps_around"], "note": "Proved for tables in which no offset + length reaches 2^32, and for all lawful tables. False otherwise: the end of a certificate is computed in 32 bits, so that a hypervisor can make the guest copy from outside of the buffer (witness)."},
 {"property": "C56", "status": "proved", "theorems": ["Svr.Props.Tpm2Snp.C56_accepts_exactly", "Svr.Props.Tpm2Snp.C56_key_was_quoted_by_the_same_software", "Svr.Props.Tpm2Snp.C56_azure_buffer", "Svr.Props.Tpm2Snp.C56_azure_buffer_short"], "note": "Exact condition for any crypto library; the second theorem adds that certified keys sign nothing but quotes and concludes up to a collision of SHA256."},
 {"property": "C57", "status": "partial", "theorems": ["Svr.Props.Tpm2Snp.C57_policy_is_checked_partial", "Svr.Props.Tpm2Snp.C57_lax_guests_are_accepted"], "note": "False of the Azure and GCP environments: nothing calls ValidateReport, evidence with a debug policy is accepted (witness). Proved for DataFromVerifiedAttestation of sev.cc."},
 {"property": "C58", "status": "partial", "theorems": ["Svr.Props.Nitro.C58_messages_are_read_exactly_partial", "Svr.Props.Nitro.C58_header_is_not_checked"], "note": "False: Valid() returns an error code as a bool, so a header that does not begin with two integers passes (witness; C59 shows that Verify checks it again). Proved for all other headers, given memory."},
 {"property": "C59", "status": "proved", "theorems": ["Svr.Props.Nitro.C59_accepts_exactly", "Svr.Props.Nitro.C59_signed_bytes_tell_apart", "Svr.Props.Nitro.C59_key_was_attested_by_the_same_image"], "note": "Exact condition for any CBOR decoder and crypto library."},
 {"property": "C60", "status": "partial", "theorems": ["Svr.Props.Tpm2Snp.C60_attest_returns_partial", "Svr.Props.Tpm2Snp.C60_rsa_platform_certificate", "Svr.Props.Tpm2Snp.C60_keys_that_are_no_objects", "Svr.Props.Nitro.C60_nitro_attest_returns_partial", "Svr.Props.Nitro.C60_huge_length", "Svr.Props.Sgx.C60_sgx_attest_returns_partial", "Svr.Props.Sgx.C60_no_custom_claims", "Svr.Props.Sgx.C60_tcb_info_not_an_object", "Svr.Props.Sgx.C60_time_without_date"], "note": "False: a platform certificate with an RSA key dereferences null, JSON that is no object fails an assertion, a huge CBOR length throws, a missing custom claim is read (witnesses). Proved for evidence without these, on each platform."},
 {"property": "C61", "status": "proved", "theorems": ["Svr.Props.Sgx.C61_accepts_exactly", "Svr.Props.Sgx.C61_minimum_is_kept", "Svr.Props.Sgx.C61_negative_number_is_huge"], "note": "Exact condition for any verifier. A negative evaluation data number, which Intel does not issue, becomes a huge one."},
 {"property": "C62", "status": "partial", "theorems": ["Svr.Props.Sgx.C62_debugging_partial", "Svr.Props.Sgx.C62_other_claims_are_not_read", "Svr.Props.Sgx.C62_debugged_enclave_accepted"], "note": "The code does not look at the attributes claim (witness and general theorem); proved if OpenEnclave refuses such evidence."},
 {"property": "C63", "status": "proved", "theorems": ["Svr.Props.OnTree.C63_db2", "Svr.Props.OnTree.C63_db3", "Svr.Props.OnTree.C63_db4", "Svr.Props.OnTree.C63_db5"], "note": "The models of the databases run on the model of the tree. Other users update a leaf before anything is verified, as Raft and the core do."},
 {"property": "C64", "status": "partial", "theorems": ["Svr.Props.OnTree.C64_db2_partial", "Svr.Props.OnTree.C64_db3", "Svr.Props.OnTree.C64_db4_partial", "Svr.Props.OnTree.C64_db5"], "note": "Proved in full for SVR3 and SVR5. SVR2: for rows whose size field is at most 48 (C06 has what happens otherwise). SVR4: for pending rotations that are not all zero, and loaded batches as replicas send them."},
 {"property": "C65", "status": "partial", "theorems": ["Svr.Props.Locks.C65_no_deadlock_partial", "Svr.Props.Locks.C65_someone_goes_on_partial", "Svr.Props.Locks.C65_nothing_left_locked_partial", "Svr.Props.Locks.C65_deadlock_in_replication"], "note": "False: when a push of replicated state cannot be sent and another thread fails the replication in between, the thread locks raft_.mu a second time (witness). Proved for all runs in which that race is not lost."},
 {"property": "C66", "status": "partial", "theorems": ["Svr.Props.Host.C66_joining_partial", "Svr.Props.Host.C66_patient_host_partial", "Svr.Props.Host.C66_second_join_null", "Svr.Props.Host.C66_second_join_incomplete", "Svr.Props.Host.C66_join_while_sending_null"], "note": "False if the host asks to join while transactions of an earlier join or of sending state are outstanding (three witnesses). Proved for all other runs with honest peers."},
 {"property": "C67", "status": "partial", "theorems": ["Svr.Props.Host.C67_answered_or_pending_partial", "Svr.Props.Host.C67_at_most_once_partial", "Svr.Props.Host.C67_all_answered_partial", "Svr.Props.Host.C67_join_not_lost_partial", "Svr.Props.Host.C67_join_answered_twice", "Svr.Props.Host.C67_join_never_answered", "Svr.Props.Host.C67_second_join_forgets_first"], "note": "Proved for every request but joining. A request to join may be answered twice, never, or be forgotten (witnesses); it is not lost if it is the only one, until the replica is a member."},
 {"property": "C68", "status": "partial", "theorems": ["Svr.Props.Random.C68_random_bytes", "Svr.Props.Random.C68_random_bytes_sgx", "Svr.Props.Random.C68_simulated_nsm_partial", "Svr.Props.Random.C68_simulated_nsm_false", "Svr.Props.Random.C68_simulated_nsm_overflow_false"], "note": "Proved of the loops used in production. False of the loop for simulated Nitro enclaves, which does not advance its pointer and takes an error for a huge length (two witnesses)."},
 {"property": "C69", "status": "proved", "theorems": ["Svr.Props.Ticks.C69_innermost", "Svr.Props.Ticks.C69_counted_once"], "note": ""},
 {"property": "C70", "status": "proved", "theorems": ["Svr.Props.Start.C70_start", "Svr.Props.Start.C70_let_in"], "note": ""},
 {"property": "C71", "status": "partial", "theorems": ["Svr.Props.Serve.C71_accept_partial", "Svr.Props.Serve.C71_accept_interrupted_false", "Svr.Props.Serve.C71_answered_once", "Svr.Props.Serve.C71_served_partial", "Svr.Props.Serve.C71_served_false", "Svr.Props.Serve.C71_dies"], "note": "False of interrupted accepts, which end the process (witness), and of an init message with a negative log level, after which nothing is read (witness); the rest is proved."},
 {"property": "C72", "status": "partial", "theorems": ["Svr.Props.Room.C72_room_exact", "Svr.Props.Room.C72_room_partial", "Svr.Props.Room.C72_leak_stays", "Svr.Props.Room.C72_wedged_forever", "Svr.Props.Room.C72_wedged_refuses", "Svr.Props.Room.C72_false_wedged"], "note": "False of the code: cancelled entries stay counted for ever, and one leader deposed with a full log never appends anything again (witness in a group of three, with a proof for all its futures). Proved exactly when a leader takes a request, and that without cancellations it does whenever there is room."},
 {"property": "C73", "status": "partial", "theorems": ["Svr.Props.Wipe.C73_svr4", "Svr.Props.Wipe.C73_svr5", "Svr.Props.Wipe.C73_svr2_partial", "Svr.Props.Wipe.C73_objects", "Svr.Props.Wipe.C73_room", "Svr.Props.Wipe.C73_false_svr3", "Svr.Props.Wipe.C73_false_svr2_memset", "Svr.Props.Wipe.C73_false_svr2_load", "Svr.Props.Wipe.C73_false_svr2_drop"], "note": "Proved for SVR4 and SVR5. False of SVR3, which wipes nothing (every removal leaves the key), and of SVR2 for received rows and for the destruction of the database; for SVR2 requests it needs a compiler that keeps a dead memset."},
 {"property": "C74", "status": "partial", "theorems": ["Svr.Props.Progress.C74_false_stuck", "Svr.Props.Progress.C74_stuck_forever", "Svr.Props.Elected.C74_electable_partial", "Svr.Props.Commits.C74_commits_partial"], "note": "False of the code: a leader promises entries of earlier terms, and followers drop vote requests that conflict with a promise, so two of three replicas can be left that never elect a leader again (witness, with a proof for all futures, and the general condition). The converse is proved for elections: a voter that no replica of a quorum refuses can be elected by them from every reachable state, and then commits its whole log and an entry of its own term, if what they promised is in its log, no membership change is under way and there is room."},
 {"property": "C75", "status": "proved", "theorems": ["Svr.Props.Matching.C75_one_entry_per_term", "Svr.Props.Matching.C75_log_matching"], "note": ""},
 {"property": "C76", "status": "partial", "theorems": ["Svr.Props.Matching.C76_false_leader_lacks", "Svr.Props.Matching.C76_lacking_never_commits_partial", "Svr.Props.Complete.C76_leader_completeness_partial", "Svr.Props.Complete.C76_quorum_completeness_partial"], "note": "False of the code: a leader of a later term may have another entry where one is committed and applied (witness). Such a leader never commits that index. It holds when the entry at the committed index is of the term of the leader that committed it, for that index and all before it, and for every index at which a quorum in some term has entries of that term."},
 {"property": "C77", "status": "partial", "theorems": ["Svr.Props.Evidence.C77_file_contents", "Svr.Props.Evidence.C77_azure_started_partial", "Svr.Props.Evidence.C77_azure_accepted_partial", "Svr.Props.Evidence.C77_gcp_started_partial", "Svr.Props.Evidence.C77_gcp_accepted_partial", "Svr.Props.Evidence.C77_started_false", "Svr.Props.Evidence.C77_evidence_returns", "Svr.Props.Evidence.C77_nitro_started", "Svr.Props.Evidence.C77_nitro_accepted", "Svr.Props.Evidence.C77_nitro_start_checks_nothing", "Svr.Props.Evidence.C77_sgx_started", "Svr.Props.Evidence.C77_sgx_accepted", "Svr.Props.Evidence.C77_simulated"], "note": "False on Azure and GCP if the host asks for a negative log level, with which LOG(FATAL) does not stop Init (witness C77_started_false); proved for levels at which fatal lines are written. What the TPM, the commands, the security module and OpenEnclave do when honest are assumptions, stated in Props/Evidence. On Azure and GCP that the certificates and the report are in order follows from Init having come to its end; on Nitro Init checks nothing of the sort (C77_nitro_start_checks_nothing), so that it is an assumption there. Errors of protobuf serialization are not modelled."},
 {"property": "C78", "status": "proved", "theorems": ["Svr.Props.Linear.C78_linearizable", "Svr.Props.Linear.C78_svr2"], "note": "For groups whose voters do not change, with hashes that do not collide. A call is a request taken by a leader (wherever it is), a handler registered for the place the leader named (at any replica, at any time) and the success the handler is told. Requests that fail or are never answered are not calls: they may or may not be among the entries."},
 {"property": "C79", "status": "proved", "theorems": ["Svr.Props.Order.C79_linearizable", "Svr.Props.Order.C79_svr2", "Svr.Props.Order.C79_as_core_does"], "note": "For a super majority of at least 1 (with 0 replicas can commit different entries, C29) and hashes that do not collide. That the order respects time is shown as long as nobody joins who is a voter in the log it is given; C79_as_core_does shows that this is so if replicas join, ask for membership and are promoted as core.cc has it, no replica joins twice (C51) and the members of the first group start without a log."},
 {"property": "C80", "status": "partial", "theorems": ["Svr.Props.Queue.C80_first_in_first_out", "Svr.Props.Queue.C80_comes_to_rest", "Svr.Props.Queue.C80_no_lost_wakeup", "Svr.Props.Queue.C80_flush_partial", "Svr.Props.Queue.C80_uninitialised", "Svr.Props.Queue.C80_flush_at_the_end_of_the_counter"], "note": "Order, size and waking are proved of every queue. False of queues without static storage: popped_ is read without ever being written, so taking out an element and Flush are undefined behaviour (C80_uninitialised). The class is included but not instantiated by the enclave at this commit; its tests instantiate it."},
 {"property": "C81", "status": "proved", "theorems": ["Svr.Props.Wake.C81_checks_hold", "Svr.Props.Wake.C81_comes_to_rest", "Svr.Props.Wake.C81_no_lost_wakeup", "Svr.Props.Wake.C81_returns_only_on_errors", "Svr.Props.Wake.C81_kill_may_be_lost"], "note": "For all numbers of threads and all interleavings at the granularity of mu_, with notifications apart from critical sections and spurious wake-ups. C81_kill_may_be_lost records that KillThread, which only tests call, can lose its notification."},
 {"property": "C82", "status": "proved", "theorems": ["Svr.Props.Family.C82_svr3", "Svr.Props.Family.C82_svr3_calls", "Svr.Props.Family.C82_svr3_calls_changing_voters", "Svr.Props.Family.C82_svr3_evaluation_limit", "Svr.Props.Family.C82_svr4", "Svr.Props.Family.C82_svr4_calls", "Svr.Props.Family.C82_svr4_calls_changing_voters", "Svr.Props.Family.C82_svr4_restore_limit", "Svr.Props.Family.C82_svr5", "Svr.Props.Family.C82_svr5_calls", "Svr.Props.Family.C82_svr5_calls_changing_voters", "Svr.Props.Family.C82_svr5_fresh", "Svr.Props.Family.C82_svr5_fresh_changing_voters"], "note": "For fixed voters, and for changing voters with a super majority of at least 1 (C29). The order of calls while voters change needs that nobody joins who is a voter in the log it is given, as in C79. Integrity trees nobody tampers with; SVR4 needs that sums of canonical scalars are canonical."},
 {"property": "C83", "status": "partial", "theorems": ["Svr.Props.Tamper.C83_svr2_partial", "Svr.Props.Tamper.C83_svr3_partial", "Svr.Props.Tamper.C83_svr4_partial", "Svr.Props.Tamper.C83_false_one_limit"], "note": "False of the group as a whole: a replica whose check fails refuses the entry and does not count it, so replicas count apart (C83_false_one_limit: two replicas, two guesses answered after a backup with one wrong guess to spare). Proved: each replica keeps the limit however its checks end, so m replicas together m times the limit, which the witness reaches. Damage is modelled by its effect on Verify: an arbitrary answer of the walk at every entry and account; rows themselves are not damaged."},
 {"property": "C84", "status": "proved", "theorems": ["Svr.Props.Secret.C84_svr2", "Svr.Props.Secret.C84_svr2_guesses", "Svr.Props.Secret.C84_svr3", "Svr.Props.Secret.C84_svr3_points"], "note": "A game: someone sees all answers, chooses every next request and every outcome of the integrity walk from what was seen; only the contents of the owner's own requests, and the secret in answers to the owner's Restores, are hidden. Two runs with different hidden contents are compared (C84_svr2, C84_svr3: any number of backups or Creates, by the owner and by others). C84_svr2_guesses and C84_svr3_points count what was learnt after one backup or Create. Answers only: time, memory access and message sizes are not modelled; Expose attempts of others are not limited by the code, and are listed, not counted. For SVR3 the products are an arbitrary function of key and element."},
 {"property": "C85", "status": "proved", "theorems": ["Svr.Props.Shares.C85_shares_hidden"], "note": "The game of C84 over a database of SVR4 and any number of sessions: entries are applied and their effects handed to sessions in any order, and requests reach sessions in any order, all chosen from what was seen. Which sessions hold something of the owner's is read off what was seen. When a Restore2 is answered OK at all is C10 and C11, and how many sessions can be opened C09. Answers only: time and message sizes are not modelled."},
 {"property": "C86", "status": "partial", "theorems": ["Svr.Props.Fatal.C86_level", "Svr.Props.Fatal.C86_fatal_partial", "Svr.Props.Fatal.C86_fatal_false", "Svr.Props.Fatal.C86_check"], "note": "False of LOG(FATAL): a host that asks for level NONE after the start, or for a negative level at any time, makes it do nothing. Proved for the other levels, and for CHECK at every level."},
 {"property": "C87", "status": "partial", "theorems": ["Svr.Props.Fatal.C87_arguments", "Svr.Props.Fatal.C87_port", "Svr.Props.Fatal.C87_atoi_false"], "note": "Which arguments are accepted, and with what result, is proved exactly. That others end the process is false of numbers beyond the range of int, of which what atoi does is undefined (witness)."},
 {"property": "C88", "status": "proved", "theorems": ["Svr.Props.Forget.C88_svr2_gone", "Svr.Props.Forget.C88_svr2_overwritten", "Svr.Props.Forget.C88_svr2_deleted", "Svr.Props.Forget.C88_svr2_spent", "Svr.Props.Forget.C88_svr3_gone", "Svr.Props.Forget.C88_svr3_overwritten", "Svr.Props.Forget.C88_svr3_removed", "Svr.Props.Forget.C88_svr3_spent", "Svr.Props.Forget.C88_svr4_gone", "Svr.Props.Forget.C88_svr4_overwritten", "Svr.Props.Forget.C88_svr4_kept", "Svr.Props.Forget.C88_svr4_removed", "Svr.Props.Forget.C88_svr4_spent", "Svr.Props.Forget.C88_svr5_gone", "Svr.Props.Forget.C88_svr5_overwritten", "Svr.Props.Forget.C88_svr5_purged"], "note": "About the rows and the hashes of the integrity tree's leaves. Memory that is free again is the matter of C73. A Create of SVR4 without a number of tries keeps the number that is left, by design, and nothing else (C88_svr4_kept)."},
 {"property": "C89", "status": "proved", "theorems": ["Svr.Props.Servers.C89_answer", "Svr.Props.Servers.C89_sum", "Svr.Props.Servers.C89_unblinded", "Svr.Props.Servers.C89_rotated", "Svr.Props.Servers.C89_same_share", "Svr.Props.Servers.C89_enc"], "note": "That libsodium computes in a group is the hypothesis Impl (Verif/Spec/Group4.lean). That the zero shares and the deltas sum to zero is up to the clients."},
 {"property": "C90", "status": "proved", "theorems": ["Svr.Props.Servers.C90_complete", "Svr.Props.Servers.C90_special_sound", "Svr.Props.Servers.C90_no_replay", "Svr.Props.Servers.C90_unique"], "note": "Impl as for C89; completeness needs that libsodium refuses nothing but the neutral element (Full). That challenges cannot be foreseen is a matter of SHA-512 and not stated."},
 {"property": "C91", "status": "proved", "theorems": ["Svr.Props.Keys.C91_keys_hidden", "Svr.Props.Keys.C91_one_element", "Svr.Props.Keys.C91_two_elements_tell"], "note": "Timing and memory are not modelled. That libsodium computes in a group is a hypothesis of the second theorem, as for C89. The third theorem shows that one element is the limit."},
 {"property": "C92", "status": "proved", "theorems": ["Svr.Props.Data5.C92_data_hidden", "Svr.Props.Data5.C92_no_limit"], "note": "Timing and memory are not modelled; HMAC is a parameter, so nothing is said of what HMACs tell."},
 {"property": "C93", "status": "proved", "theorems": ["Svr.Props.Alone.C93_alone", "Svr.Props.Alone.C93_connects_to_itself"], "note": "Noise is a parameter: its authenticity is assumed of the calls made in the run (structure Honest)."},
 {"property": "C94", "status": "proved", "theorems": ["Svr.Props.Status.C94_report", "Svr.Props.Status.C94_report_outside", "Svr.Props.Status.C94_leader_sees_members", "Svr.Props.Status.C94_named_leader_led", "Svr.Props.Status.C94_same_leader", "Svr.Props.Status.C94_match_in_log", "Svr.Props.Status.C94_zero_peer", "Svr.Props.Status.C94_leader_left_out"], "note": "The last two are witnesses of what the report does not give: members the peer manager does not know are left out, and a peer whose id is all zeros is marked as leader when there is none."},
 {"property": "C95", "status": "proved", "theorems": ["Svr.Props.TmpDir.C95_removed", "Svr.Props.TmpDir.C95_own", "Svr.Props.TmpDir.C95_leaves_nothing", "Svr.Props.TmpDir.C95_init_errors", "Svr.Props.TmpDir.C95_init_total", "Svr.Props.TmpDir.C95_exclusive", "Svr.Props.TmpDir.C95_links_stay"], "note": "The order in which fts_read visits a tree, and that it sees the tree as it is, are part of the model. C95_links_stay is a witness that what is neither a directory nor a regular file stays, with the directories above it."},
 {"property": "C96", "status": "proved", "theorems": ["Svr.Props.Wire.C96_message", "Svr.Props.Wire.C96_entry", "Svr.Props.Wire.C96_group", "Svr.Props.Wire.C96_messages_differ", "Svr.Props.Wire.C96_entries_differ", "Svr.Props.Wire.C96_groups_differ", "Svr.Props.Wire.C96_parsed", "Svr.Props.Wire.C96_typed", "Svr.Props.Wire.C96_unknown_field", "Svr.Props.Wire.C96_agreement", "Svr.Props.Wire.C96_not_canonical"], "note": "The wire format is that of the protobuf specification; the library and the code it generates are not part of the repository. Sizes are limited to what the library parses. C96_groups_differ discharges SerInj, which the theorems about groups assume of the serialization."},
 {"property": "C97", "status": "proved", "theorems": ["Svr.Props.Requests.C97_svr2", "Svr.Props.Requests.C97_svr3", "Svr.Props.Requests.C97_svr4", "Svr.Props.Requests.C97_svr5", "Svr.Props.Requests.C97_request", "Svr.Props.Requests.C97_rows", "Svr.Props.Requests.C97_empty", "Svr.Props.Requests.C97_host_unchecked", "Svr.Props.Requests.C97_padding"], "note": "The wire format is that of the protobuf specification, including merging of repeated parts, the last member of a oneof and unknown fields, which MergeFrom keeps. Groups (wire types 3 and 4) are refused by the model and skipped by the library. C97_host_unchecked and C97_padding show what is not so of requests of the host and of sizes."},
 {"property": "C98", "status": "proved", "theorems": ["Svr.Props.Replies.C98_svr2", "Svr.Props.Replies.C98_svr3", "Svr.Props.Replies.C98_svr4", "Svr.Props.Replies.C98_svr5", "Svr.Props.Replies.C98_answers", "Svr.Props.Replies.C98_sealed", "Svr.Props.Replies.C98_length_shows", "Svr.Props.Replies.C98_length_shows_sealed"], "note": "Trusted: no collision of the hash chain, and for C98_sealed a cipher that decrypts what it encrypted. Voters are fixed, as in the parts of C78 and C82 used here. SVR4: requests that are logged; Restore2 is answered without the log. What a client reads is the protobuf specification, as clients are not part of the repository. C98_length_shows is about what the lengths of answers give away."},
 {"property": "C99", "status": "proved", "theorems": ["Svr.Props.PeerWire.C99_round_trip", "Svr.Props.PeerWire.C99_differ", "Svr.Props.PeerWire.C99_in_order", "Svr.Props.PeerWire.C99_delivered", "Svr.Props.PeerWire.C99_empty", "Svr.Props.PeerWire.C99_nothing_made_up"], "note": "Trusted: protobuf writes the entries of a map in some order and refuses keys that are not text (parameters ord and utf8); for the session what C53 trusts of the cipher (NoForgery). Database rows in a push are bytes (their format is C97). C99_in_order is about data that is not empty; C99_nothing_made_up allows empty data too, for which the core reads messages with nothing set."},
 {"property": "C100", "status": "partial", "theorems": ["Svr.Props.Handshake.C100_connected_partial", "Svr.Props.Handshake.C100_then_reads_partial", "Svr.Props.Handshake.C100_crossing"], "note": "False of the code if the requests of the two enclaves cross (C100_crossing): both end disconnected. Proved if they do not cross. Trusted: the Noise library completes a handshake that is carried over unaltered (Shakes)."},
 {"property": "C101", "status": "proved", "theorems": ["Svr.Props.PushWire.C101_push_size", "Svr.Props.PushWire.C101_push_read", "Svr.Props.PushWire.C101_rows_svr2", "Svr.Props.PushWire.C101_rows_svr3", "Svr.Props.PushWire.C101_rows_svr4", "Svr.Props.PushWire.C101_rows_svr5", "Svr.Props.PushWire.C101_append_read", "Svr.Props.PushWire.C101_over_chunk", "Svr.Props.PushWire.C101_run", "Svr.Props.PushWire.C101_run_svr2", "Svr.Props.PushWire.C101_run_svr3", "Svr.Props.PushWire.C101_run_svr4", "Svr.Props.PushWire.C101_run_svr5"], "note": "The bound is on chunk size, largest log entry, number of members and bytes of limits together. C101_over_chunk shows that the configured size itself is not a bound. C101_run: in every run of replication as in C34, with any order of pushes and responses. Trusted as in C99: the order of map entries and which keys are text."},
 {"property": "C102", "status": "partial", "theorems": ["Svr.Props.RandomUse.C102_checked", "Svr.Props.RandomUse.C102_checked_number", "Svr.Props.RandomUse.C102_group_id", "Svr.Props.RandomUse.C102_tmp_name", "Svr.Props.RandomUse.C102_unchecked_partial", "Svr.Props.RandomUse.C102_unchecked_false"], "note": "Proved of libsodium, Noise, the SipHash keys, group ids and directory names. False of the Merkle tree key, the replication id and the seed of rand, where the error is ignored (witness); they are right as long as the source does not fail. Simulated Nitro enclaves, of which C68 is false, are left out."},
 {"property": "C103", "status": "partial", "theorems": ["Svr.Props.Hand.C103_successor_has_all", "Svr.Props.Hand.C103_takes_no_requests", "Svr.Props.Hand.C103_successor_is_alive_partial", "Svr.Props.Hand.C103_successor_may_be_gone"], "note": "Proved: who is told to take over, when, and that a leader looking for a successor takes no requests. That the successor spoke after the request holds only if the leader could append an entry (the partial theorem); with a full log it is false (witness)."},
 {"property": "C104", "status": "partial", "theorems": ["Svr.Props.Relinquish.C104_leadership_ended_partial", "Svr.Props.Relinquish.C104_still_leads", "Svr.Props.Relinquish.C104_error_though_handed_over"], "note": "Proved: success means that the next term has had a leader and that the replica leads its old term no more. False: that another replica leads (witness), and that a handover that worked is reported as success (witness)."},
 {"property": "C105", "status": "partial", "theorems": ["Svr.Props.HostDelete.C105_deleted_partial", "Svr.Props.HostDelete.C105_refused_reported_as_success", "Svr.Props.HostDelete.C105_success_without_effect"], "note": "Proved for deletions in SVR2 to SVR5: told of success, the row is gone. False for other requests: one that the database refuses is reported as a success and changes nothing (general theorem and witness). That no other entry has the hash of the host's entry is part of the hypothesis."},
 {"property": "C106", "status": "proved", "theorems": ["Svr.Props.PushEnds.C106_push_advances", "Svr.Props.PushEnds.C106_replication_ends", "Svr.Props.PushEnds.C106_svr2", "Svr.Props.PushEnds.C106_svr3", "Svr.Props.PushEnds.C106_svr4", "Svr.Props.PushEnds.C106_svr5", "Svr.Props.PushEnds.C106_without_room_stuck", "Svr.Props.PushEnds.C106_busy_member_sends_no_rows"], "note": "That each push advances is proved for every push, whatever the member does between pushes. The number of pushes is bounded for a member whose log and database stay as they are meanwhile, as the statement says; indexes and sequence numbers are taken to fit in 64 bits."},
 {"property": "C107", "status": "partial", "theorems": ["Svr.Props.Write.C107_forwarded", "Svr.Props.Write.C107_own_partial", "Svr.Props.Write.C107_same_content", "Svr.Props.Write.C107_forwarded_needs_time", "Svr.Props.Write.C107_own_without_time", "Svr.Props.Write.C107_member_may_change_membership"], "note": "Proved of forwarded writes. Of the writes of the leader's own clients all is proved but that the time of a quorum is known, which is false (witness): RaftWriteLogTransaction does not check it."},
 {"property": "C108", "status": "partial", "theorems": ["Svr.Props.GroupRequest.C108_own_place_partial", "Svr.Props.GroupRequest.C108_removal_without_time"], "note": "Proved for all three requests, except that the time of a quorum is known when a replica asks to be removed, which is false (witness): HandlePeerRequestedRaftRemoval does not check it. That ids can be read back from their strings, and that voters are members, are hypotheses."}
]}
