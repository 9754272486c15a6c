import Lean.Util.CollectAxioms
import Verif.Props.DB2
import Verif.Props.DB2Rows
import Verif.Props.DB3
import Verif.Props.DB4
import Verif.Props.DB5
import Verif.Props.RowSize
import Verif.Props.Timeout
import Verif.Props.GroupClock
import Verif.Props.Codec
import Verif.Props.Minimums
import Verif.Props.Membership
import Verif.Props.Config
import Verif.Props.RaftLog
import Verif.Props.RaftNode
import Verif.Props.RaftGroup
import Verif.Props.Noise
import Verif.Props.Socket
import Verif.Props.Merkle
import Verif.Props.LogTx
import Verif.Props.Grid
import Verif.Props.Rejoin
import Verif.Props.E2E
import Verif.Props.Regroup
import Verif.Props.RaftLeaves
import Verif.Props.RaftMessages
import Verif.Props.Peers
import Verif.Props.PeersTotal
import Verif.Props.PeerSession
import Verif.Props.Clients
import Verif.Props.Replicate
import Verif.Props.Tpm2
import Verif.Props.Sev
import Verif.Props.Tpm2Snp
import Verif.Props.Nitro
import Verif.Props.Sgx
import Verif.Props.OnTree
import Verif.Props.Locks
import Verif.Props.Host
import Verif.Props.Random
import Verif.Props.Ticks
import Verif.Props.Start
import Verif.Props.Serve
import Verif.Props.Room
import Verif.Props.Wipe
import Verif.Props.Progress
import Verif.Props.Matching
import Verif.Props.Elected
import Verif.Props.Commits
import Verif.Props.Complete
import Verif.Props.Evidence
import Verif.Props.Linear
import Verif.Props.Order
import Verif.Props.Queue
import Verif.Props.Wake
import Verif.Props.Family
import Verif.Props.Tamper
import Verif.Props.Secret
import Verif.Props.Shares
import Verif.Props.Fatal
import Verif.Props.Forget
import Verif.Props.Servers
import Verif.Props.Keys
import Verif.Props.Data5
import Verif.Props.Alone
import Verif.Props.Status
import Verif.Props.TmpDir
import Verif.Props.Wire
import Verif.Props.Requests
import Verif.Props.Replies
import Verif.Props.PeerWire
import Verif.Props.Handshake
import Verif.Props.PeerData
import Verif.Props.PushWire
import Verif.Props.PushRun
import Verif.Props.RandomUse
import Verif.Props.Hand
import Verif.Props.Relinquish
import Verif.Props.HostDelete
import Verif.Props.PushEnds
import Verif.Props.Write
import Verif.Props.GroupRequest

/-!
# Axioms

The first command fails unless every theorem of the project depends on `propext`, `Classical.choice` and `Quot.sound` only.
The others print the axioms of each theorem named in `MANIFEST.json`.
-/

open Lean in
run_cmd do
  let env ← getEnv
  let mut n : Nat := 0
  for (c, i) in env.constants.map₁ do
    if (`Svr).isPrefixOf c && i.isThm then
      n := n + 1
      for a in ← collectAxioms c do
        unless [``propext, ``Classical.choice, ``Quot.sound].contains a do throwError "{c} depends on {a}"
  if n < 1000 then throwError "only {n} theorems"
  logInfo m!"{n} theorems"

#print axioms Svr.Props.DB2.C01_mismatches_count_down
#print axioms Svr.Props.DB2.C01_at_most_n_pins_tested
#print axioms Svr.Props.DB2.C01_exhausted_never_ok
#print axioms Svr.Props.DB2.C02_responses_follow_vault
#print axioms Svr.Props.DB2.C02_restore_ok_iff
#print axioms Svr.Props.DB2.C03_not_restorable_before_expose
#print axioms Svr.Props.DB2Rows.C04_db2_isolation
#print axioms Svr.Props.DB3.C04_db3_isolation
#print axioms Svr.Props.DB4.C04_db4_isolation
#print axioms Svr.Props.DB5.C04_db5_isolation
#print axioms Svr.Props.DB2Rows.C05_db2_never_aborts
#print axioms Svr.Props.DB3.C05_db3_never_aborts
#print axioms Svr.Props.DB5.C05_db5_never_aborts
#print axioms Svr.Props.DB4.C05_db4_never_aborts
#print axioms Svr.Props.DB4.C05_db4_never_aborts_partial
#print axioms Svr.Props.DB4.C05_db4_short_id_ub
#print axioms Svr.Props.DB2Rows.C06_db2_rollback_detected_partial
#print axioms Svr.Props.DB2Rows.C06_db2_size_field_ub
#print axioms Svr.Props.DB3.C06_db3_rollback_detected
#print axioms Svr.Props.DB5.C06_db5_rollback_detected
#print axioms Svr.Props.DB4.C06_db4_rollback_detected
#print axioms Svr.Props.DB4.C06_db4_create_accepts_tampered_counter
#print axioms Svr.Props.DB3.C07_evaluations_count_down
#print axioms Svr.Props.DB3.C08_evaluate_uses_created_key
#print axioms Svr.Props.DB3.C08_failed_evaluate_no_change
#print axioms Svr.Props.DB4.C09_restore1_counts_down
#print axioms Svr.Props.DB4.C10_restore2_uses_fresh_restore1
#print axioms Svr.Props.DB4.C10_shares_bounded
#print axioms Svr.Props.DB4.C11_share_after_valid_proof_partial
#print axioms Svr.Props.DB4.C11_version_zero_empty_share
#print axioms Svr.Props.DB4.C12_start_keeps_old
#print axioms Svr.Props.DB4.C12_commit_keeps_new
#print axioms Svr.Props.DB4.C12_rollback_keeps_old
#print axioms Svr.Props.DB4.C12_only_rotation_changes_keys
#print axioms Svr.Props.DB4.C13_rotations_belong_to_accounts
#print axioms Svr.Props.DB4.C13_rotations_belong_to_accounts_partial
#print axioms Svr.Props.DB4.C13_truncated_target_version
#print axioms Svr.Props.DB4.C13_zero_rotation_not_hashed
#print axioms Svr.Props.DB5.C14_download_latest_upload
#print axioms Svr.Props.DB2Rows.C15_db2_stream_reproduces
#print axioms Svr.Props.DB3.C15_db3_stream_reproduces
#print axioms Svr.Props.DB4.C15_db4_stream_reproduces
#print axioms Svr.Props.DB5.C15_db5_stream_reproduces
#print axioms Svr.Props.DB2Rows.C16_db2_load_only_appends
#print axioms Svr.Props.DB3.C16_db3_load_only_appends
#print axioms Svr.Props.DB4.C16_db4_load_only_appends_partial
#print axioms Svr.Props.DB5.C16_db5_load_only_appends
#print axioms Svr.Props.DB2Rows.C17_db2_hash_identifies
#print axioms Svr.Props.DB3.C17_db3_hash_identifies
#print axioms Svr.Props.DB4.C17_db4_hash_identifies
#print axioms Svr.Props.DB5.C17_db5_hash_identifies
#print axioms Svr.Props.DB2Rows.C18_db2_no_false_alarm
#print axioms Svr.Props.DB3.C18_db3_no_false_alarm
#print axioms Svr.Props.DB4.C18_db4_no_false_alarm
#print axioms Svr.Props.DB5.C18_db5_no_false_alarm
#print axioms Svr.Props.RowSize.C19_db5_row_size
#print axioms Svr.Props.RowSize.C19_db2_row_size_partial
#print axioms Svr.Props.RowSize.C19_db3_row_size_partial
#print axioms Svr.Props.RowSize.C19_db4_row_size_partial
#print axioms Svr.Props.RowSize.C19_db2_exceeds
#print axioms Svr.Props.RowSize.C19_db3_exceeds
#print axioms Svr.Props.RowSize.C19_db4_exceeds
#print axioms Svr.Props.Merkle.C20_verify
#print axioms Svr.Props.Merkle.C20_only_last
#print axioms Svr.Props.Merkle.C21_stale_node
#print axioms Svr.Props.Merkle.C21_rollback
#print axioms Svr.Props.Merkle.C22_safe
#print axioms Svr.Props.Merkle.C22_depth
#print axioms Svr.Props.Merkle.C22_slots
#print axioms Svr.Props.Merkle.C22_end
#print axioms Svr.Props.RaftLog.C23_window
#print axioms Svr.Props.RaftLog.C23_no_ub
#print axioms Svr.Props.RaftLog.C23_append_drops
#print axioms Svr.Props.RaftLog.C23_iterators
#print axioms Svr.Props.RaftLog.C23_drop_minimal_partial
#print axioms Svr.Props.RaftLog.C23_cancel_leaks_bytes
#print axioms Svr.Props.RaftLog.C23_bounds_needed
#print axioms Svr.Props.RaftLog.C23_next_idx_of_empty
#print axioms Svr.Props.RaftLog.C23_set_next
#print axioms Svr.Props.Membership.C24_quorum_exists
#print axioms Svr.Props.Membership.C24_quorums_intersect
#print axioms Svr.Props.Membership.C24_quorums_intersect_across_change
#print axioms Svr.Props.Membership.C25_progression_exact
#print axioms Svr.Props.Membership.C25_fromProto
#print axioms Svr.Props.RaftGroup.C26_one_leader_per_term
#print axioms Svr.Props.RaftNode.C27_entries_extend_chain
#print axioms Svr.Props.RaftNode.C27_first_entry_extends_chain
#print axioms Svr.Props.RaftNode.C27_same_hash_same_history
#print axioms Svr.Props.RaftGroup.C28_committed_agree
#print axioms Svr.Props.RaftGroup.C28_applied_agree
#print axioms Svr.Props.RaftGroup.C29_committed_agree_partial
#print axioms Svr.Props.RaftGroup.C29_applied_agree_partial
#print axioms Svr.Props.RaftGroup.C29_false_without_super_majority
#print axioms Svr.Props.RaftNode.C30_monotone_partial
#print axioms Svr.Props.RaftNode.C30_promised_entries_stay
#print axioms Svr.Props.RaftNode.C30_term_wraps
#print axioms Svr.Props.RaftNode.C30_commit_above_promise
#print axioms Svr.Props.RaftGroup.C30_indexes_in_order
#print axioms Svr.Props.RaftNode.C31_one_vote_per_term_partial
#print axioms Svr.Props.RaftNode.C31_vote_twice_after_wrap
#print axioms Svr.Props.RaftNode.C32_in_order_once
#print axioms Svr.Props.RaftNode.C32_only_committed
#print axioms Svr.Props.RaftNode.C32_nothing_left
#print axioms Svr.Props.RaftMessages.C33_other_group_ignored
#print axioms Svr.Props.RaftMessages.C33_non_member_ignored
#print axioms Svr.Props.RaftMessages.C33_stale_term_changes_nothing
#print axioms Svr.Props.RaftMessages.C33_no_message_aborts_partial
#print axioms Svr.Props.RaftMessages.C33_overclaiming_ack_aborts
#print axioms Svr.Props.RaftMessages.C33_group_never_aborts
#print axioms Svr.Props.RaftMessages.C33_ack_beyond_log_aborts
#print axioms Svr.Props.RaftMessages.C33_two_lying_acks_abort
#print axioms Svr.Props.RaftMessages.C33_own_id_aborts
#print axioms Svr.Props.RaftMessages.C33_reset_of_own_id
#print axioms Svr.Props.Replicate.C34_svr2_partial
#print axioms Svr.Props.Replicate.C34_svr3_partial
#print axioms Svr.Props.Replicate.C34_svr4_partial
#print axioms Svr.Props.Replicate.C34_svr5_partial
#print axioms Svr.Props.Replicate.C34_members
#print axioms Svr.Props.Replicate.C34_members_grow
#print axioms Svr.Props.Replicate.C34_joins_partial
#print axioms Svr.Props.Replicate.C34_truncated
#print axioms Svr.Props.Replicate.C34_reordered
#print axioms Svr.Props.Grid.C35_same_index_same_database
#print axioms Svr.Props.Grid.C35_changing_voters
#print axioms Svr.Props.Grid.C35_serial
#print axioms Svr.Props.Grid.C35_applies_what_is_committed
#print axioms Svr.Props.Grid.C36_one_thread
#print axioms Svr.Props.Grid.C36_single_vault
#print axioms Svr.Props.Grid.C36_single_vault_changing_voters
#print axioms Svr.Props.Grid.C36_guess_limit
#print axioms Svr.Props.Grid.C36_guess_limit_changing_voters
#print axioms Svr.Props.LogTx.C37_told
#print axioms Svr.Props.LogTx.C37_at_most_once
#print axioms Svr.Props.LogTx.C37_not_registered
#print axioms Svr.Props.LogTx.C37_success_is_true
#print axioms Svr.Props.LogTx.C37_answered_when_committed
#print axioms Svr.Props.LogTx.C37_answered_when_removed
#print axioms Svr.Props.LogTx.C37_answered_in_time
#print axioms Svr.Props.LogTx.C37_late_is_never_answered
#print axioms Svr.Props.E2E.C38_outcome
#print axioms Svr.Props.E2E.C38_unsent
#print axioms Svr.Props.E2E.C38_not_early
#print axioms Svr.Props.E2E.C38_times_out
#print axioms Svr.Props.E2E.C38_always_defined
#print axioms Svr.Props.Regroup.C39_regroup
#print axioms Svr.Props.Regroup.C39_sizes
#print axioms Svr.Props.Regroup.C39_complete
#print axioms Svr.Props.Regroup.C39_accepted_partial
#print axioms Svr.Props.Regroup.sound_of_reachable
#print axioms Svr.Props.Regroup.C39_false_small_minimum
#print axioms Svr.Props.Regroup.C39_requested_voters_exceed_maximum
#print axioms Svr.Props.Minimums.C40_update_exact
#print axioms Svr.Props.Minimums.C40_limits_ratchet
#print axioms Svr.Props.Minimums.C40_values_exact
#print axioms Svr.Props.Minimums.C40_later_limits_stricter
#print axioms Svr.Props.Minimums.C40_absent_value_passes
#print axioms Svr.Props.Minimums.C40_combine_sound
#print axioms Svr.Props.Minimums.C40_combine_rejects
#print axioms Svr.Props.Minimums.C41_two_in_flight_abort
#print axioms Svr.Props.Minimums.C41_every_replica_aborts
#print axioms Svr.Props.Minimums.C41_applicable_partial
#print axioms Svr.Props.Peers.C42_attested
#print axioms Svr.Props.Peers.C42_keys
#print axioms Svr.Props.Peers.C42_fresh_partial
#print axioms Svr.Props.Peers.C42_minimums
#print axioms Svr.Props.Peers.C42_heard
#print axioms Svr.Props.Peers.C42_told
#print axioms Svr.Props.Peers.C42_total
#print axioms Svr.Props.Peers.C42_stale_until_the_clock_moves
#print axioms Svr.Props.Peers.C42_low_until_checked
#print axioms Svr.Props.Peers.C42_clock_overflow
#print axioms Svr.Props.Peers.C42_malformed_id
#print axioms Svr.Props.Timeout.C43_fires_exactly_once
#print axioms Svr.Props.Timeout.C43_no_overflow
#print axioms Svr.Props.Timeout.C43_overflow_ub
#print axioms Svr.Props.GroupClock.C44_median_tolerates_minority
#print axioms Svr.Props.GroupClock.C44_last_reports
#print axioms Svr.Props.Noise.C45_encrypt_no_ub
#print axioms Svr.Props.Noise.C45_decrypt_no_ub
#print axioms Svr.Props.Noise.C45_round_trip
#print axioms Svr.Props.Noise.C45_tampering_rejected_partial
#print axioms Svr.Props.Noise.C45_empty_accepted
#print axioms Svr.Props.Noise.C45_cut_accepted_without_ad
#print axioms Svr.Props.Socket.C46_no_abort
#print axioms Svr.Props.Socket.C46_in_order
#print axioms Svr.Props.Socket.C46_written
#print axioms Svr.Props.Socket.C46_all_delivered
#print axioms Svr.Props.Socket.C46_flush
#print axioms Svr.Props.Codec.C47_hex_decode_exact
#print axioms Svr.Props.Codec.C47_hex_roundtrip
#print axioms Svr.Props.Codec.C47_peerid
#print axioms Svr.Props.Codec.C48_base64_roundtrip
#print axioms Svr.Props.Codec.C48_decode_exact
#print axioms Svr.Props.Codec.C48_decode_safe_partial
#print axioms Svr.Props.Codec.C48_non_ascii_ub
#print axioms Svr.Props.Clients.C49_ids
#print axioms Svr.Props.Clients.C49_session
#print axioms Svr.Props.Clients.C49_nonces
#print axioms Svr.Props.Clients.C49_attested_key
#print axioms Svr.Props.Clients.C49_paired
#print axioms Svr.Props.Clients.C49_own_row
#print axioms Svr.Props.Clients.C49_closed
#print axioms Svr.Props.Clients.C49_no_ub_partial
#print axioms Svr.Props.Clients.C49_guessed_id_ub
#print axioms Svr.Props.Clients.C49_rotation_undone
#print axioms Svr.Props.Clients.C49_stale_evidence
#print axioms Svr.Props.Clients.C49_log_exact
#print axioms Svr.Props.Clients.owned_db2
#print axioms Svr.Props.Clients.owned_db4
#print axioms Svr.Props.Config.C50_start_sound
#print axioms Svr.Props.Config.C50_stays_sound
#print axioms Svr.Props.Config.C50_no_zero_divisor
#print axioms Svr.Props.Config.C50_election_timeout_partial
#print axioms Svr.Props.Config.C50_huge_election_ticks_wrap
#print axioms Svr.Props.Rejoin.C51_agree_partial
#print axioms Svr.Props.Rejoin.C26_false_with_rejoin
#print axioms Svr.Props.Rejoin.C28_false_with_rejoin
#print axioms Svr.Props.Rejoin.C36_false_with_rejoin
#print axioms Svr.Props.RaftLeaves.C52_frozen
#print axioms Svr.Props.RaftLeaves.C52_severed
#print axioms Svr.Props.RaftLeaves.C52_right
#print axioms Svr.Props.RaftLeaves.C52_rollback
#print axioms Svr.Props.PeerSession.C53_in_order_partial
#print axioms Svr.Props.PeerSession.C53_nothing_made_up
#print axioms Svr.Props.PeerSession.C53_delivered
#print axioms Svr.Props.PeerSession.C53_empty_injected
#print axioms Svr.Props.PeerSession.C53_empty_changes_key
#print axioms Svr.Props.Tpm2.C54_quotes_are_read_exactly
#print axioms Svr.Props.Tpm2.C54_no_two_quotes_look_alike
#print axioms Svr.Props.Tpm2.C54_signatures_are_read_exactly
#print axioms Svr.Props.Tpm2.C54_registers_are_read_exactly
#print axioms Svr.Props.Tpm2.C54_registers_are_those_quoted
#print axioms Svr.Props.Sev.C55_table_is_read_exactly_partial
#print axioms Svr.Props.Sev.C55_lawful_tables_are_read_right
#print axioms Svr.Props.Sev.C55_end_wraps_around
#print axioms Svr.Props.Tpm2Snp.C56_accepts_exactly
#print axioms Svr.Props.Tpm2Snp.C56_key_was_quoted_by_the_same_software
#print axioms Svr.Props.Tpm2Snp.C56_azure_buffer
#print axioms Svr.Props.Tpm2Snp.C56_azure_buffer_short
#print axioms Svr.Props.Tpm2Snp.C57_policy_is_checked_partial
#print axioms Svr.Props.Tpm2Snp.C57_lax_guests_are_accepted
#print axioms Svr.Props.Nitro.C58_messages_are_read_exactly_partial
#print axioms Svr.Props.Nitro.C58_header_is_not_checked
#print axioms Svr.Props.Nitro.C59_accepts_exactly
#print axioms Svr.Props.Nitro.C59_signed_bytes_tell_apart
#print axioms Svr.Props.Nitro.C59_key_was_attested_by_the_same_image
#print axioms Svr.Props.Tpm2Snp.C60_attest_returns_partial
#print axioms Svr.Props.Tpm2Snp.C60_rsa_platform_certificate
#print axioms Svr.Props.Tpm2Snp.C60_keys_that_are_no_objects
#print axioms Svr.Props.Nitro.C60_nitro_attest_returns_partial
#print axioms Svr.Props.Nitro.C60_huge_length
#print axioms Svr.Props.Sgx.C60_sgx_attest_returns_partial
#print axioms Svr.Props.Sgx.C60_no_custom_claims
#print axioms Svr.Props.Sgx.C60_tcb_info_not_an_object
#print axioms Svr.Props.Sgx.C60_time_without_date
#print axioms Svr.Props.Sgx.C61_accepts_exactly
#print axioms Svr.Props.Sgx.C61_minimum_is_kept
#print axioms Svr.Props.Sgx.C61_negative_number_is_huge
#print axioms Svr.Props.Sgx.C62_debugging_partial
#print axioms Svr.Props.Sgx.C62_other_claims_are_not_read
#print axioms Svr.Props.Sgx.C62_debugged_enclave_accepted
#print axioms Svr.Props.OnTree.C63_db2
#print axioms Svr.Props.OnTree.C63_db3
#print axioms Svr.Props.OnTree.C63_db4
#print axioms Svr.Props.OnTree.C63_db5
#print axioms Svr.Props.OnTree.C64_db2_partial
#print axioms Svr.Props.OnTree.C64_db3
#print axioms Svr.Props.OnTree.C64_db4_partial
#print axioms Svr.Props.OnTree.C64_db5
#print axioms Svr.Props.Locks.C65_no_deadlock_partial
#print axioms Svr.Props.Locks.C65_someone_goes_on_partial
#print axioms Svr.Props.Locks.C65_nothing_left_locked_partial
#print axioms Svr.Props.Locks.C65_deadlock_in_replication
#print axioms Svr.Props.Host.C66_joining_partial
#print axioms Svr.Props.Host.C66_patient_host_partial
#print axioms Svr.Props.Host.C66_second_join_null
#print axioms Svr.Props.Host.C66_second_join_incomplete
#print axioms Svr.Props.Host.C66_join_while_sending_null
#print axioms Svr.Props.Host.C67_answered_or_pending_partial
#print axioms Svr.Props.Host.C67_at_most_once_partial
#print axioms Svr.Props.Host.C67_all_answered_partial
#print axioms Svr.Props.Host.C67_join_not_lost_partial
#print axioms Svr.Props.Host.C67_join_answered_twice
#print axioms Svr.Props.Host.C67_join_never_answered
#print axioms Svr.Props.Host.C67_second_join_forgets_first
#print axioms Svr.Props.Random.C68_random_bytes
#print axioms Svr.Props.Random.C68_random_bytes_sgx
#print axioms Svr.Props.Random.C68_simulated_nsm_partial
#print axioms Svr.Props.Random.C68_simulated_nsm_false
#print axioms Svr.Props.Random.C68_simulated_nsm_overflow_false
#print axioms Svr.Props.Ticks.C69_innermost
#print axioms Svr.Props.Ticks.C69_counted_once
#print axioms Svr.Props.Start.C70_start
#print axioms Svr.Props.Start.C70_let_in
#print axioms Svr.Props.Serve.C71_accept_partial
#print axioms Svr.Props.Serve.C71_accept_interrupted_false
#print axioms Svr.Props.Serve.C71_answered_once
#print axioms Svr.Props.Serve.C71_served_partial
#print axioms Svr.Props.Serve.C71_served_false
#print axioms Svr.Props.Serve.C71_dies
#print axioms Svr.Props.Room.C72_room_exact
#print axioms Svr.Props.Room.C72_room_partial
#print axioms Svr.Props.Room.C72_leak_stays
#print axioms Svr.Props.Room.C72_wedged_forever
#print axioms Svr.Props.Room.C72_wedged_refuses
#print axioms Svr.Props.Room.C72_false_wedged
#print axioms Svr.Props.Wipe.C73_svr4
#print axioms Svr.Props.Wipe.C73_svr5
#print axioms Svr.Props.Wipe.C73_svr2_partial
#print axioms Svr.Props.Wipe.C73_objects
#print axioms Svr.Props.Wipe.C73_room
#print axioms Svr.Props.Wipe.C73_false_svr3
#print axioms Svr.Props.Wipe.C73_false_svr2_memset
#print axioms Svr.Props.Wipe.C73_false_svr2_load
#print axioms Svr.Props.Wipe.C73_false_svr2_drop
#print axioms Svr.Props.Progress.C74_false_stuck
#print axioms Svr.Props.Progress.C74_stuck_forever
#print axioms Svr.Props.Elected.C74_electable_partial
#print axioms Svr.Props.Commits.C74_commits_partial
#print axioms Svr.Props.Matching.C75_one_entry_per_term
#print axioms Svr.Props.Matching.C75_log_matching
#print axioms Svr.Props.Matching.C76_false_leader_lacks
#print axioms Svr.Props.Matching.C76_lacking_never_commits_partial
#print axioms Svr.Props.Complete.C76_leader_completeness_partial
#print axioms Svr.Props.Complete.C76_quorum_completeness_partial
#print axioms Svr.Props.Evidence.C77_file_contents
#print axioms Svr.Props.Evidence.C77_azure_started_partial
#print axioms Svr.Props.Evidence.C77_azure_accepted_partial
#print axioms Svr.Props.Evidence.C77_gcp_started_partial
#print axioms Svr.Props.Evidence.C77_gcp_accepted_partial
#print axioms Svr.Props.Evidence.C77_started_false
#print axioms Svr.Props.Evidence.C77_evidence_returns
#print axioms Svr.Props.Evidence.C77_nitro_started
#print axioms Svr.Props.Evidence.C77_nitro_accepted
#print axioms Svr.Props.Evidence.C77_nitro_start_checks_nothing
#print axioms Svr.Props.Evidence.C77_sgx_started
#print axioms Svr.Props.Evidence.C77_sgx_accepted
#print axioms Svr.Props.Evidence.C77_simulated
#print axioms Svr.Props.Linear.C78_linearizable
#print axioms Svr.Props.Linear.C78_svr2
#print axioms Svr.Props.Order.C79_linearizable
#print axioms Svr.Props.Order.C79_svr2
#print axioms Svr.Props.Order.C79_as_core_does
#print axioms Svr.Props.Queue.C80_first_in_first_out
#print axioms Svr.Props.Queue.C80_comes_to_rest
#print axioms Svr.Props.Queue.C80_no_lost_wakeup
#print axioms Svr.Props.Queue.C80_flush_partial
#print axioms Svr.Props.Queue.C80_uninitialised
#print axioms Svr.Props.Queue.C80_flush_at_the_end_of_the_counter
#print axioms Svr.Props.Wake.C81_checks_hold
#print axioms Svr.Props.Wake.C81_comes_to_rest
#print axioms Svr.Props.Wake.C81_no_lost_wakeup
#print axioms Svr.Props.Wake.C81_returns_only_on_errors
#print axioms Svr.Props.Wake.C81_kill_may_be_lost
#print axioms Svr.Props.Family.C82_svr3
#print axioms Svr.Props.Family.C82_svr3_calls
#print axioms Svr.Props.Family.C82_svr3_calls_changing_voters
#print axioms Svr.Props.Family.C82_svr3_evaluation_limit
#print axioms Svr.Props.Family.C82_svr4
#print axioms Svr.Props.Family.C82_svr4_calls
#print axioms Svr.Props.Family.C82_svr4_calls_changing_voters
#print axioms Svr.Props.Family.C82_svr4_restore_limit
#print axioms Svr.Props.Family.C82_svr5
#print axioms Svr.Props.Family.C82_svr5_calls
#print axioms Svr.Props.Family.C82_svr5_calls_changing_voters
#print axioms Svr.Props.Family.C82_svr5_fresh
#print axioms Svr.Props.Family.C82_svr5_fresh_changing_voters
#print axioms Svr.Props.Tamper.C83_svr2_partial
#print axioms Svr.Props.Tamper.C83_svr3_partial
#print axioms Svr.Props.Tamper.C83_svr4_partial
#print axioms Svr.Props.Tamper.C83_false_one_limit
#print axioms Svr.Props.Secret.C84_svr2
#print axioms Svr.Props.Secret.C84_svr2_guesses
#print axioms Svr.Props.Secret.C84_svr3
#print axioms Svr.Props.Secret.C84_svr3_points
#print axioms Svr.Props.Shares.C85_shares_hidden
#print axioms Svr.Props.Fatal.C86_level
#print axioms Svr.Props.Fatal.C86_fatal_partial
#print axioms Svr.Props.Fatal.C86_fatal_false
#print axioms Svr.Props.Fatal.C86_check
#print axioms Svr.Props.Fatal.C87_arguments
#print axioms Svr.Props.Fatal.C87_port
#print axioms Svr.Props.Fatal.C87_atoi_false
#print axioms Svr.Props.Forget.C88_svr2_gone
#print axioms Svr.Props.Forget.C88_svr2_overwritten
#print axioms Svr.Props.Forget.C88_svr2_deleted
#print axioms Svr.Props.Forget.C88_svr2_spent
#print axioms Svr.Props.Forget.C88_svr3_gone
#print axioms Svr.Props.Forget.C88_svr3_overwritten
#print axioms Svr.Props.Forget.C88_svr3_removed
#print axioms Svr.Props.Forget.C88_svr3_spent
#print axioms Svr.Props.Forget.C88_svr4_gone
#print axioms Svr.Props.Forget.C88_svr4_overwritten
#print axioms Svr.Props.Forget.C88_svr4_kept
#print axioms Svr.Props.Forget.C88_svr4_removed
#print axioms Svr.Props.Forget.C88_svr4_spent
#print axioms Svr.Props.Forget.C88_svr5_gone
#print axioms Svr.Props.Forget.C88_svr5_overwritten
#print axioms Svr.Props.Forget.C88_svr5_purged
#print axioms Svr.Props.Servers.C89_answer
#print axioms Svr.Props.Servers.C89_sum
#print axioms Svr.Props.Servers.C89_unblinded
#print axioms Svr.Props.Servers.C89_rotated
#print axioms Svr.Props.Servers.C89_same_share
#print axioms Svr.Props.Servers.C89_enc
#print axioms Svr.Props.Servers.C90_complete
#print axioms Svr.Props.Servers.C90_special_sound
#print axioms Svr.Props.Servers.C90_no_replay
#print axioms Svr.Props.Servers.C90_unique
#print axioms Svr.Props.Keys.C91_keys_hidden
#print axioms Svr.Props.Keys.C91_one_element
#print axioms Svr.Props.Keys.C91_two_elements_tell
#print axioms Svr.Props.Data5.C92_data_hidden
#print axioms Svr.Props.Data5.C92_no_limit
#print axioms Svr.Props.Alone.C93_alone
#print axioms Svr.Props.Alone.C93_connects_to_itself
#print axioms Svr.Props.Status.C94_report
#print axioms Svr.Props.Status.C94_report_outside
#print axioms Svr.Props.Status.C94_leader_sees_members
#print axioms Svr.Props.Status.C94_named_leader_led
#print axioms Svr.Props.Status.C94_same_leader
#print axioms Svr.Props.Status.C94_match_in_log
#print axioms Svr.Props.Status.C94_zero_peer
#print axioms Svr.Props.Status.C94_leader_left_out
#print axioms Svr.Props.TmpDir.C95_removed
#print axioms Svr.Props.TmpDir.C95_own
#print axioms Svr.Props.TmpDir.C95_leaves_nothing
#print axioms Svr.Props.TmpDir.C95_init_errors
#print axioms Svr.Props.TmpDir.C95_init_total
#print axioms Svr.Props.TmpDir.C95_exclusive
#print axioms Svr.Props.TmpDir.C95_links_stay
#print axioms Svr.Props.Wire.C96_message
#print axioms Svr.Props.Wire.C96_entry
#print axioms Svr.Props.Wire.C96_group
#print axioms Svr.Props.Wire.C96_messages_differ
#print axioms Svr.Props.Wire.C96_entries_differ
#print axioms Svr.Props.Wire.C96_groups_differ
#print axioms Svr.Props.Wire.C96_parsed
#print axioms Svr.Props.Wire.C96_typed
#print axioms Svr.Props.Wire.C96_unknown_field
#print axioms Svr.Props.Wire.C96_agreement
#print axioms Svr.Props.Wire.C96_not_canonical
#print axioms Svr.Props.Requests.C97_svr2
#print axioms Svr.Props.Requests.C97_svr3
#print axioms Svr.Props.Requests.C97_svr4
#print axioms Svr.Props.Requests.C97_svr5
#print axioms Svr.Props.Requests.C97_request
#print axioms Svr.Props.Requests.C97_rows
#print axioms Svr.Props.Requests.C97_empty
#print axioms Svr.Props.Requests.C97_host_unchecked
#print axioms Svr.Props.Requests.C97_padding
#print axioms Svr.Props.Replies.C98_svr2
#print axioms Svr.Props.Replies.C98_svr3
#print axioms Svr.Props.Replies.C98_svr4
#print axioms Svr.Props.Replies.C98_svr5
#print axioms Svr.Props.Replies.C98_answers
#print axioms Svr.Props.Replies.C98_sealed
#print axioms Svr.Props.Replies.C98_length_shows
#print axioms Svr.Props.Replies.C98_length_shows_sealed
#print axioms Svr.Props.PeerWire.C99_round_trip
#print axioms Svr.Props.PeerWire.C99_differ
#print axioms Svr.Props.PeerWire.C99_in_order
#print axioms Svr.Props.PeerWire.C99_delivered
#print axioms Svr.Props.PeerWire.C99_empty
#print axioms Svr.Props.PeerWire.C99_nothing_made_up
#print axioms Svr.Props.Handshake.C100_connected_partial
#print axioms Svr.Props.Handshake.C100_then_reads_partial
#print axioms Svr.Props.Handshake.C100_crossing
#print axioms Svr.Props.PushWire.C101_push_size
#print axioms Svr.Props.PushWire.C101_push_read
#print axioms Svr.Props.PushWire.C101_rows_svr2
#print axioms Svr.Props.PushWire.C101_rows_svr3
#print axioms Svr.Props.PushWire.C101_rows_svr4
#print axioms Svr.Props.PushWire.C101_rows_svr5
#print axioms Svr.Props.PushWire.C101_append_read
#print axioms Svr.Props.PushWire.C101_over_chunk
#print axioms Svr.Props.PushWire.C101_run
#print axioms Svr.Props.PushWire.C101_run_svr2
#print axioms Svr.Props.PushWire.C101_run_svr3
#print axioms Svr.Props.PushWire.C101_run_svr4
#print axioms Svr.Props.PushWire.C101_run_svr5
#print axioms Svr.Props.RandomUse.C102_checked
#print axioms Svr.Props.RandomUse.C102_checked_number
#print axioms Svr.Props.RandomUse.C102_group_id
#print axioms Svr.Props.RandomUse.C102_tmp_name
#print axioms Svr.Props.RandomUse.C102_unchecked_partial
#print axioms Svr.Props.RandomUse.C102_unchecked_false
#print axioms Svr.Props.Hand.C103_successor_has_all
#print axioms Svr.Props.Hand.C103_takes_no_requests
#print axioms Svr.Props.Hand.C103_successor_is_alive_partial
#print axioms Svr.Props.Hand.C103_successor_may_be_gone
#print axioms Svr.Props.Relinquish.C104_leadership_ended_partial
#print axioms Svr.Props.Relinquish.C104_still_leads
#print axioms Svr.Props.Relinquish.C104_error_though_handed_over
#print axioms Svr.Props.HostDelete.C105_deleted_partial
#print axioms Svr.Props.HostDelete.C105_refused_reported_as_success
#print axioms Svr.Props.HostDelete.C105_success_without_effect
#print axioms Svr.Props.PushEnds.C106_push_advances
#print axioms Svr.Props.PushEnds.C106_replication_ends
#print axioms Svr.Props.PushEnds.C106_svr2
#print axioms Svr.Props.PushEnds.C106_svr3
#print axioms Svr.Props.PushEnds.C106_svr4
#print axioms Svr.Props.PushEnds.C106_svr5
#print axioms Svr.Props.PushEnds.C106_without_room_stuck
#print axioms Svr.Props.PushEnds.C106_busy_member_sends_no_rows
#print axioms Svr.Props.Write.C107_forwarded
#print axioms Svr.Props.Write.C107_own_partial
#print axioms Svr.Props.Write.C107_same_content
#print axioms Svr.Props.Write.C107_forwarded_needs_time
#print axioms Svr.Props.Write.C107_own_without_time
#print axioms Svr.Props.Write.C107_member_may_change_membership
#print axioms Svr.Props.GroupRequest.C108_own_place_partial
#print axioms Svr.Props.GroupRequest.C108_removal_without_time
