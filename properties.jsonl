{"id": "C01", "title": "SVR2 guess limit", "statement": "After a Backup with max_tries=n for an account, and until the next Backup for that account, at most n Restore requests with a wrong PIN are ever evaluated against that backup: every evaluated wrong guess is answered PIN_MISMATCH with a tries counter that went down by exactly one, the n-th one is answered MISSING, and after it no Restore of any PIN is answered OK until a new Backup.", "quantifier": "every finite history of log entries (all five request kinds, all accounts interleaved), every n in 1..255, every PIN and secret", "why_tests_cant": "The number of histories is unbounded; a test only exercises a few interleavings of Backup/Expose/Restore/Delete and cannot show no other order refunds a guess.", "anchors": ["enclave/db/db2.cc:DB2::Run", "enclave/db/db2.cc:DB2::Backup", "enclave/db/db2.cc:DB2::Restore", "enclave/db/db2.cc:DB2::Expose", "enclave/db/db2.cc:DB2::Delete"]}
{"id": "C02", "title": "SVR2 responses are determined by the account's own request history", "statement": "For every account, the response to each request equals what a small per-account vault specification (empty, or a secret with a PIN, a remaining-guess count and an exposed flag) answers after the requests of that same account; in particular Restore answers OK with secret d exactly when the latest Backup stored d under that PIN, it was exposed by somebody presenting d, fewer than max_tries wrong guesses were made since, and there was no Delete since.", "quantifier": "every finite history of log entries over any number of accounts", "why_tests_cant": "Equivalence of two state machines over all histories is an inductive statement.", "anchors": ["enclave/db/db2.cc:DB2::Run"]}
{"id": "C03", "title": "SVR2 two-phase exposure", "statement": "After a Backup, no Restore for the account is answered OK and no guess is consumed until an Expose request whose data begins with the stored secret has been applied.", "quantifier": "every history between the Backup and the first matching Expose, every request content", "why_tests_cant": "Requires ruling out every path to the AVAILABLE state.", "anchors": ["enclave/db/db2.cc:DB2::Backup", "enclave/db/db2.cc:DB2::Expose", "enclave/db/db2.cc:DB2::Restore"]}
{"id": "C04", "title": "Account isolation", "statement": "A log entry for one account never changes the response that any later request sequence for a different account receives (SVR2, SVR3, SVR4 and SVR5 databases).", "quantifier": "every database state reachable or not, every pair of distinct accounts, every entry, every later sequence", "why_tests_cant": "Non-interference is a statement about pairs of runs.", "anchors": ["enclave/db/db2.cc:DB2::Run", "enclave/db/db3.cc:DB3::Run", "enclave/db/db4.cc:DB4::Run", "enclave/db/db5.cc:DB5::Run"]}
{"id": "C05", "title": "Applying a validated entry never aborts and keeps rows well formed", "statement": "Starting from an empty database, applying any sequence of entries that pass ValidateClientLog and loading any row batches never reaches a CHECK failure or undefined behaviour, and every stored row keeps its advertised limits (SVR2: 1..255 tries, 16..48 data bytes; SVR3/SVR4: 1..255 tries).", "quantifier": "every sequence of validated entries and of arbitrary row batches", "why_tests_cant": "uint8 counters wrap at 0; only an invariant over all reachable states excludes that.", "anchors": ["enclave/db/db2.cc:DB2::Run", "enclave/db/db3.cc:DB3::Run", "enclave/db/db4.cc:DB4::Run", "enclave/db/db5.cc:DB5::Run", "enclave/db/db2.cc:DB2::LoadRowsFromProtos"]}
{"id": "C06", "title": "Rolled-back row memory is detected before anything is released", "statement": "If an attacker overwrites the stored content of a row with different content (for instance an older version with more tries) without fixing the integrity hash kept for it, then Restore/Expose (SVR2), Evaluate (SVR3), Restore1/RotateStart/RotateCommit/RotateRollback (SVR4) and Download (SVR5) do not answer OK and release nothing from the row, assuming the row hash does not collide.", "quantifier": "every database state, every replacement row, every request", "why_tests_cant": "The set of tampered states is infinite; a test picks one.", "anchors": ["enclave/db/db2.cc:DB2::Restore", "enclave/db/db2.cc:DB2::HashRow", "enclave/db/db3.cc:DB3::Evaluate", "enclave/db/db4.cc:DB4::Restore1", "enclave/db/db5.cc:DB5::Download"]}
{"id": "C07", "title": "SVR3 evaluation limit", "statement": "After a Create with max_tries=n answered OK and until the next Create answered OK, at most n Evaluate requests for the account are answered OK; the k-th of them reports n-k tries remaining, and once 0 is reported all further Evaluate and Query answers are MISSING.", "quantifier": "every finite history of entries over any accounts, every n in 1..255", "why_tests_cant": "Same as C01.", "anchors": ["enclave/db/db3.cc:DB3::Create", "enclave/db/db3.cc:DB3::Evaluate", "enclave/db/db3.cc:DB3::Remove", "enclave/db/db3.cc:DB3::Query"]}
{"id": "C08", "title": "SVR3 evaluations use the key fixed at Create", "statement": "Every Evaluate answered OK returns the blinded element multiplied by the private key that was recorded in the log entry of the latest successful Create for the account; an Evaluate that is not answered OK does not change the database.", "quantifier": "every history, every element and key, every scalar multiplication function (including failing ones)", "why_tests_cant": "Depends on all interleavings of Create, failed Create, Evaluate and Remove.", "anchors": ["enclave/db/db3.cc:DB3::Create", "enclave/db/db3.cc:DB3::Evaluate", "enclave/db/db3.cc:DB3::BlindEvaluate"]}
{"id": "C09", "title": "SVR4 Restore1 attempt limit", "statement": "Between two Create requests that set a non-zero max_tries, the number of Restore1 requests for the account that are evaluated (answered OK or ERROR) never exceeds the max_tries set; each lowers the reported counter by one even when the group operation fails, rotation requests do not refund attempts, and reaching zero removes the account with its pending rotation.", "quantifier": "every history over all seven logged request kinds, every failure pattern of the group operations", "why_tests_cant": "Rotation, re-creation with max_tries=0 and failures give unboundedly many interleavings.", "anchors": ["enclave/db/db4.cc:DB4::Create", "enclave/db/db4.cc:DB4::Restore1", "enclave/db/db4.cc:DB4::RotateStart", "enclave/db/db4.cc:DB4::RotateCommit", "enclave/db/db4.cc:DB4::RotateRollback"]}
{"id": "C10", "title": "SVR4 Restore2 is one-shot per Restore1", "statement": "In a client session, every Restore2 answered with an encryption share uses the result of a Restore1 answered OK in the same session, and each OK Restore1 enables at most one Restore2: any request submitted in between discards it. So a session obtains at most as many shares as successful Restore1 calls it made.", "quantifier": "every sequence of requests and effects delivered to a client session, in any order the host chooses", "why_tests_cant": "The host schedules requests and effects arbitrarily.", "anchors": ["enclave/db/db4.cc:DB4::ClientState::ResponseFromRequest", "enclave/db/db4.cc:DB4::ClientState::ResponseFromEffect"]}
{"id": "C11", "title": "SVR4 Restore2 releases a share only after a valid proof for a known version", "statement": "Restore2 answers OK only if auth_scalar*G = auth_point + H(auth_point, blinded, handshake_hash)*auth_commitment for the commitment stored when Restore1 ran, and the share returned is the one belonging to the version asked for (current, or current combined with the pending delta).", "quantifier": "all requests, all stored states, any group", "why_tests_cant": "Universally quantified over group elements and states.", "anchors": ["enclave/db/db4.cc:DB4::ClientState::Restore2", "enclave/db/db4.cc:DB4::Restore1"]}
{"id": "C12", "title": "SVR4 rotation is atomic", "statement": "After RotateStart with deltas (a,b) the account answers Restore1 for both the old and the new version; RotateCommit leaves exactly the share the new version would have produced before the commit, RotateRollback leaves exactly the old one, and no other request changes the key material. A Restore1 for a version gives the same evaluated element before and after the commit/rollback that keeps that version.", "quantifier": "every account state, every pair of deltas, every history of rotation requests", "why_tests_cant": "Relates runs before and after; unbounded histories.", "anchors": ["enclave/db/db4.cc:DB4::RotateStart", "enclave/db/db4.cc:DB4::RotateCommit", "enclave/db/db4.cc:DB4::RotateRollback", "enclave/db/db4.cc:DB4::Restore1"]}
{"id": "C13", "title": "SVR4 pending rotations always belong to a live account", "statement": "In every reachable SVR4 database a pending rotation exists only for an account that exists, and its target version differs from 0; hence hashing or streaming the database never fails.", "quantifier": "every history of entries and row loads", "why_tests_cant": "Inductive invariant over two maps.", "anchors": ["enclave/db/db4.cc:DB4::Hash", "enclave/db/db4.cc:DB4::RowsAsProtos", "enclave/db/db4.cc:DB4::Create", "enclave/db/db4.cc:DB4::Remove"]}
{"id": "C14", "title": "SVR5 download answers HMAC of the latest upload", "statement": "Download answers OK with HMAC(data, password) where data is the latest Upload for the account not followed by a Purge, and MISSING otherwise.", "quantifier": "every history", "why_tests_cant": "Inductive over all histories.", "anchors": ["enclave/db/db5.cc:DB5::Upload", "enclave/db/db5.cc:DB5::Download", "enclave/db/db5.cc:DB5::Purge"]}
{"id": "C15", "title": "Row streaming reproduces the database", "statement": "Streaming a database with RowsAsProtos in consecutive chunks of any positive sizes, each starting after the last key returned, and loading the chunks with LoadRowsFromProtos into an empty database yields a database with the same content, the same Hash() and the same responses to every later history (SVR2..SVR5).", "quantifier": "every reachable database, every sequence of chunk sizes", "why_tests_cant": "All database contents and chunkings.", "anchors": ["enclave/db/db2.cc:DB2::RowsAsProtos", "enclave/db/db2.cc:DB2::LoadRowsFromProtos", "enclave/db/db3.cc:DB3::RowsAsProtos", "enclave/db/db4.cc:DB4::RowsAsProtos", "enclave/db/db5.cc:DB5::RowsAsProtos"]}
{"id": "C16", "title": "Row loading is strictly ordered and never overwrites", "statement": "LoadRowsFromProtos never changes or removes a row that was already present, only adds rows with keys larger than every key present, and reports OK only if every row of the batch was added.", "quantifier": "every database and every (possibly malicious) batch of rows", "why_tests_cant": "Adversarial inputs.", "anchors": ["enclave/db/db2.cc:DB2::LoadRowsFromProtos", "enclave/db/db3.cc:DB3::LoadRowsFromProtos", "enclave/db/db4.cc:DB4::LoadRowsFromProtos", "enclave/db/db5.cc:DB5::LoadRowsFromProtos"]}
{"id": "C17", "title": "Database hash identifies the content", "statement": "Two databases of the same kind report the same Hash() only if they hold the same rows (same responses to all later histories), assuming the two underlying hash functions do not collide.", "quantifier": "every pair of databases", "why_tests_cant": "Injectivity of the serialisation over all contents.", "anchors": ["enclave/db/db2.cc:DB2::HashRow", "enclave/db/db2.cc:DB2::Hash", "enclave/db/db3.cc:DB3::HashRow", "enclave/db/db4.cc:DB4::HashRow", "enclave/db/db5.cc:DB5::HashRow"]}
{"id": "C18", "title": "No false integrity failures", "statement": "In every database reached from an empty one by any history of entries and row loads (without outside tampering) the integrity check of every row succeeds, so no client is ever refused with an integrity ERROR/MERKLE_FAILURE.", "quantifier": "every history of entries and row batches", "why_tests_cant": "Every mutation path must refresh the integrity hash; one forgotten path breaks only particular histories.", "anchors": ["enclave/db/db2.cc:DB2::Restore", "enclave/db/db3.cc:DB3::Evaluate", "enclave/db/db4.cc:DB4::Restore1", "enclave/db/db5.cc:DB5::Download", "enclave/merkle/merkle.cc:Leaf::Update"]}
{"id": "C19", "title": "Advertised maximum row size bounds every serialised row", "statement": "MaxRowSerializedSize() is at least the protobuf-encoded size of every row RowsAsProtos can emit.", "quantifier": "every reachable row of each database kind", "why_tests_cant": "Worst-case row needs all fields at their maximum simultaneously.", "anchors": ["enclave/db/db2.cc:DB2::Protocol::MaxRowSerializedSize", "enclave/db/db3.cc:DB3::Protocol::MaxRowSerializedSize", "enclave/db/db4.cc:DB4::Protocol::MaxRowSerializedSize", "enclave/db/db5.cc:DB5::Protocol::MaxRowSerializedSize"]}
{"id": "C20", "title": "Merkle tree verifies every live leaf after any history", "statement": "After any history of creating leaves (each followed by its first Update), updating, moving and destroying leaves in any order, Verify(h) of every live leaf succeeds exactly when h is the value of that leaf's latest Update.", "quantifier": "every history, any number of leaves, any tree depth", "why_tests_cant": "Tree growth at several full levels combined with deletions.", "anchors": ["enclave/merkle/merkle.cc:Leaf::Update", "enclave/merkle/merkle.cc:Leaf::Verify", "enclave/merkle/merkle.cc:Tree::CurrentWithSpace", "enclave/merkle/merkle.cc:Part::~Part", "enclave/merkle/merkle.cc:Node::Remove"]}
{"id": "C21", "title": "Merkle tree detects stale nodes", "statement": "If the stored child hashes of any node on a leaf's path are replaced by other values (for instance an older page) while the hash kept one level up is current, Verify of that leaf fails, assuming the node hash does not collide.", "quantifier": "every tree, every leaf, every node on its path, every replacement", "why_tests_cant": "Adversarial memory contents.", "anchors": ["enclave/merkle/merkle.cc:Leaf::Verify", "enclave/merkle/merkle.cc:Node::ComputeCurrent"]}
{"id": "C22", "title": "Merkle tree structure is sound", "statement": "No history of leaf creation, update, move and destruction makes the tree insert into a full node, remove a non-child, touch a freed node, or free a node that still has children; all leaves stay at the same depth.", "quantifier": "every history", "why_tests_cant": "Pointer-structure invariant over all shapes.", "anchors": ["enclave/merkle/merkle.cc:Tree::CurrentWithSpace", "enclave/merkle/merkle.cc:Node::Insert", "enclave/merkle/merkle.cc:Node::Remove", "enclave/merkle/merkle.cc:Node::Replace", "enclave/merkle/merkle.cc:Part::~Part"]}
{"id": "C23", "title": "Raft log storage", "statement": "The log behaves as a gap-free window of entries: appending at an index keeps all earlier entries and replaces the suffix, lookups return what was appended last at that index, entries are only dropped from the front when the byte limit requires it and never above the caller's limit, and iterators traverse exactly the stored window.", "quantifier": "every sequence of appends, truncations and reads with any entry sizes and limits", "why_tests_cant": "Unbounded sequences and size combinations.", "anchors": ["enclave/raft/log.cc:Log::Append", "enclave/raft/log.cc:Log::CancelFrom", "enclave/raft/log.cc:Log::At", "enclave/raft/log.cc:Log::RemoveOldest", "enclave/raft/log.cc:Log::Iterator"]}
{"id": "C24", "title": "Quorum intersection", "statement": "Any two sets of voting replicas of quorum size share at least super_majority+1 replicas when there are more voters than super_majority, a quorum is never larger than the voters, and the same holds across any permitted one-step change of the voter set.", "quantifier": "every voter count and super_majority, every pair of quorums", "why_tests_cant": "Universal arithmetic/combinatorial statement with truncating unsigned arithmetic.", "anchors": ["enclave/raft/raft.cc:Raft::quorum_size", "enclave/raft/membership.cc:Membership::ValidProgressionForLeader"]}
{"id": "C25", "title": "Membership changes are single-step", "statement": "A membership change is accepted by a leader only if it adds or removes at most one replica or changes at most one voter, never drops the leader itself or its voting role, never leaves a voter outside the group, and never changes more than one of these at once.", "quantifier": "every pair of memberships and every leader", "why_tests_cant": "Set-difference conditions over all sets.", "anchors": ["enclave/raft/membership.cc:Membership::ValidProgressionForLeader", "enclave/raft/membership.cc:SetDiffSize", "enclave/raft/membership.cc:Membership::FromProto"]}
{"id": "C26", "title": "Election safety", "statement": "With a fixed voter set, at most one replica ever acts as leader in any term.", "quantifier": "every schedule: message loss, duplication, reordering, delay, timers, replica crashes, any number of replicas", "why_tests_cant": "Unbounded asynchronous schedules.", "anchors": ["enclave/raft/raft.cc:Raft::HandleVoteRequest", "enclave/raft/raft.cc:Raft::HandleVoteResponse", "enclave/raft/raft.cc:Raft::MaybeBecomeLeader", "enclave/raft/raft.cc:Raft::ElectionTimeout", "enclave/raft/raft.cc:Raft::UpdateTerm"]}
{"id": "C27", "title": "Equal hash chain means equal history", "statement": "If two replicas' logs carry the same chain hash at the same index, they hold the same entries at all earlier retained indexes; a follower never accepts an entry whose chain hash does not extend its own log, assuming SHA-256 does not collide.", "quantifier": "every pair of logs, every append message (including forged content)", "why_tests_cant": "Induction over chain length; adversarial messages.", "anchors": ["enclave/raft/raft.cc:Raft::NextHash", "enclave/raft/raft.cc:Raft::CheckLogHash", "enclave/raft/raft.cc:Raft::HandleAppendRequest"]}
{"id": "C28", "title": "Committed entries agree (fixed membership)", "statement": "With a fixed voter set, if two replicas have both committed an index, they committed the same entry there, at all times, forever.", "quantifier": "every schedule: message loss, duplication, reordering, replica crashes, concurrent leaders, any number of replicas and entries", "why_tests_cant": "Unbounded asynchronous schedules; the core safety argument of consensus.", "anchors": ["enclave/raft/raft.cc:Raft::Receive", "enclave/raft/raft.cc:Raft::HandleAppendRequest", "enclave/raft/raft.cc:Raft::HandleAppendResponse", "enclave/raft/raft.cc:Raft::MaybeAdvanceCommitIndex", "enclave/raft/raft.cc:Raft::quorum_size"]}
{"id": "C29", "title": "Committed entries agree across membership changes", "statement": "Also while the voter set is being changed one replica at a time through the log, no two replicas commit different entries at the same index.", "quantifier": "every schedule that includes any sequence of accepted membership changes", "why_tests_cant": "Requires exploring elections concurrent with in-flight reconfigurations.", "anchors": ["enclave/raft/raft.cc:Raft::ReplicaGroupChange", "enclave/raft/raft.cc:Raft::LogRequest", "enclave/raft/raft.cc:Raft::MaybeAdvanceCommitIndex", "enclave/raft/membership.cc:Membership::ValidProgressionForLeader"]}
{"id": "C30", "title": "A replica never takes back what it promised", "statement": "At a replica the term, the promise index and the commit index never decrease, commit <= promise <= last log index always, and an entry at or below the promise index is never replaced or removed by truncation.", "quantifier": "every sequence of inputs (messages from anyone, client requests, timer ticks)", "why_tests_cant": "Inductive invariant over all inputs including adversarial ones.", "anchors": ["enclave/raft/raft.cc:Raft::Receive", "enclave/raft/raft.cc:Raft::HandleAppendRequest", "enclave/raft/raft.cc:Raft::MaybeAdvanceCommitIndex", "enclave/raft/raft.cc:Raft::UpdateTerm"]}
{"id": "C31", "title": "One vote per term", "statement": "A replica never grants its vote to two different candidates in the same term.", "quantifier": "every sequence of inputs", "why_tests_cant": "Inductive over all inputs.", "anchors": ["enclave/raft/raft.cc:Raft::HandleVoteRequest", "enclave/raft/raft.cc:Raft::ElectionTimeout", "enclave/raft/raft.cc:Raft::UpdateTerm"]}
{"id": "C32", "title": "Committed entries are delivered once, in order, without gaps", "statement": "Successive TakeCommittedLog calls return index 1 (or the loaded start), then each following index exactly once, and only committed indexes.", "quantifier": "every sequence of inputs interleaved with TakeCommittedLog calls", "why_tests_cant": "Interleavings with log trimming.", "anchors": ["enclave/raft/raft.cc:Raft::TakeCommittedLog"]}
{"id": "C33", "title": "Malformed or stale messages cannot abort or disturb a replica", "statement": "A message from a non-member, for another group, or with a stale term leaves log, vote, commit and promise indexes unchanged and no message makes the replica abort.", "quantifier": "every replica state and every message content", "why_tests_cant": "Adversarial message contents.", "anchors": ["enclave/raft/raft.cc:Raft::ValidateReceivedMessage", "enclave/raft/raft.cc:Raft::Receive", "enclave/raft/raft.cc:Raft::HandleAppendResponse"]}
{"id": "C34", "title": "Joining replica obtains the sender's database", "statement": "When replication to a joining replica finishes, its database has exactly the content of the sender's database after the last log entry sent, whatever entries were committed while rows were being streamed and however the stream was split.", "quantifier": "every interleaving of committed entries with row pushes, all chunk sizes, all databases", "why_tests_cant": "Interleavings of concurrent writes with streaming.", "anchors": ["enclave/core/core.cc:Core::SendNextReplicationState", "enclave/core/core.cc:Core::HandleReplicateStatePush", "enclave/core/core.cc:Core::MaybeApplyLogToReplicatingDatabase"]}
{"id": "C35", "title": "Replicas at the same log index have the same database", "statement": "Two fully loaded replicas that have applied the same committed index hold identical databases and returned identical effects for every entry.", "quantifier": "every schedule with fixed membership, every log content", "why_tests_cant": "Composition of consensus safety with determinism of application.", "anchors": ["enclave/core/core.cc:Core::RaftHandleCommittedLogs", "enclave/core/core.cc:Core::RaftApplyLogToDatabase", "enclave/db/db.h:DB::Run"]}
{"id": "C36", "title": "Group-wide guess limit", "statement": "Across all replicas, leader changes and crashes, for one SVR2 backup with max_tries=n the group as a whole evaluates at most n distinct wrong-PIN Restore entries: the responses any replica produces for committed entries are those of a single sequential vault.", "quantifier": "every schedule with fixed membership, every set of clients and hosts", "why_tests_cant": "Combines unbounded schedules with unbounded histories.", "anchors": ["enclave/core/core.cc:Core::RaftHandleCommittedLogs", "enclave/raft/raft.cc:Raft::MaybeAdvanceCommitIndex", "enclave/db/db2.cc:DB2::Restore"]}
{"id": "C37", "title": "Client request outcomes are truthful", "statement": "The completion handler registered for a proposed log entry runs at most once; it reports success only if the entry committed at that index is the proposed one (same term, and same chain hash when known); it is run with an error when another entry commits there or the replica leaves the group.", "quantifier": "every sequence of proposals, commits and membership removals", "why_tests_cant": "Interleavings of proposals and commits.", "anchors": ["enclave/core/core.cc:Core::AddLogTransaction", "enclave/core/core.cc:Core::HandleLogTransactionsForRaftLog", "enclave/core/core.cc:Core::HandleRaftMembershipChange"]}
{"id": "C38", "title": "Peer transactions complete exactly once", "statement": "For every end-to-end request to a peer the completion callback runs at most once and, once the request got a response from that peer, timed out, or the peer was reset, exactly once; a response from a different peer is ignored.", "quantifier": "every interleaving of responses, timeouts, resets and send failures", "why_tests_cant": "Race between response, timeout and reset.", "anchors": ["enclave/core/core.cc:Core::SendE2ETransaction", "enclave/core/core.cc:Core::HandleE2E", "enclave/core/core.cc:Core::ResetPeer"]}
{"id": "C39", "title": "Automatic regrouping respects the configured sizes", "statement": "The group change proposed by a leader on its own initiative never lowers the number of voters below min_voting_replicas, never raises it above max_voting_replicas, and always passes the single-step membership rule.", "quantifier": "every membership, every last-seen vector and configuration", "why_tests_cant": "Many parameters.", "anchors": ["enclave/core/core.cc:Core::NextReplicaGroup", "enclave/core/core.cc:Core::HandleRequestRaftVoting"]}
{"id": "C40", "title": "Minimums only ratchet up", "statement": "Accepted minimums updates never remove a key, never lower a value and never change a value's width; a peer or self attestation with any present value below the minimum is rejected.", "quantifier": "every sequence of updates and every attestation value map", "why_tests_cant": "All sequences of updates.", "anchors": ["enclave/minimums/minimums.cc:Minimums::UpdateLimits", "enclave/minimums/minimums.cc:Minimums::CheckValues", "enclave/minimums/minimums.cc:Minimums::CombineValues"]}
{"id": "C41", "title": "Minimums updates accepted by the leader can be applied everywhere", "statement": "Every minimums update that a replica accepts for the log can be applied when it commits, i.e. applying a committed minimums entry never aborts a replica.", "quantifier": "every interleaving of update requests and commits", "why_tests_cant": "Requires two updates in flight.", "anchors": ["enclave/core/core.cc:Core::HandleUpdateMinimums", "enclave/core/core.cc:Core::HandleRaftMinimumsChange", "enclave/core/core.cc:Core::HandleRaftWrite"]}
{"id": "C42", "title": "Only freshly attested peers are connected", "statement": "A peer is in the connected state only if an attestation for exactly that peer id was accepted, that attestation satisfied the minimums in force, and after each group-time update every connected peer's attestation age is within the configured timeout.", "quantifier": "every sequence of connect, accept, receive, disconnect, reset, time and minimums events", "why_tests_cant": "State machine with many interleavings.", "anchors": ["enclave/peers/peers.cc:Peer::Recv", "enclave/peers/peers.cc:Peer::Accept", "enclave/peers/peers.cc:Peer::FinishConnection", "enclave/peers/peers.cc:Peer::MaybeDisconnectIfAttestationTooOld", "enclave/peers/peers.cc:PeerManager::MinimumsUpdated"]}
{"id": "C43", "title": "Timeouts fire exactly once at the right tick", "statement": "A callback registered for n ticks runs exactly once, at the tick max(1,n) after registration, unless cancelled before; a cancelled one never runs.", "quantifier": "every sequence of SetTimeout, CancelTimeout and TimerTick", "why_tests_cant": "All interleavings.", "anchors": ["enclave/timeout/timeout.cc:Timeout::SetTimeout", "enclave/timeout/timeout.cc:Timeout::TimerTick", "enclave/timeout/timeout.cc:Timeout::CancelTimeout"]}
{"id": "C44", "title": "Group clock tolerates a minority of wrong clocks", "statement": "The group time is one of the reported times and, whenever a strict majority of the times used lie in an interval, it lies in that interval.", "quantifier": "every set of reported times and every faulty minority", "why_tests_cant": "All multisets of values.", "anchors": ["enclave/groupclock/groupclock.cc:Clock::GetTime"]}
{"id": "C45", "title": "Large noise messages survive splitting", "statement": "Encrypting and decrypting a message of any length through the multi-part framing returns the same message, never writes outside its buffers, and with the peer associated data any truncation, reordering or splicing of parts is rejected.", "quantifier": "every message length, every modification of the part sequence, any AEAD", "why_tests_cant": "All lengths around multiples of the part size; adversarial modifications.", "anchors": ["enclave/noise/noise.cc:Encrypt", "enclave/noise/noise.cc:Decrypt"]}
{"id": "C46", "title": "Socket framing delivers messages intact and in order", "statement": "The messages parsed by the reader are exactly the messages written, in order, for any interleaving of writers with the flushing thread and any fragmentation of the byte stream.", "quantifier": "every message sequence, every interleaving, every fragmentation", "why_tests_cant": "Concurrency plus arbitrary read sizes.", "anchors": ["enclave/socketwrap/socket.cc:Socket::ReadPB", "enclave/socketwrap/socket.cc:Socket::WritePB", "enclave/socketwrap/socket.cc:Socket::WriteThread"]}
{"id": "C47", "title": "Hex and peer-id codecs are inverse", "statement": "Decoding the hex encoding of any bytes returns them, and decoding accepts exactly strings of hex digit pairs; PeerID string conversion is inverse on 32-byte ids.", "quantifier": "every byte string and every text", "why_tests_cant": "Infinite domain.", "anchors": ["enclave/util/hex.cc:BytesToHex", "enclave/util/hex.cc:HexToBytes", "enclave/peerid/peerid.cc:PeerID::FromString"]}
{"id": "C48", "title": "Base64 codec is inverse and memory safe", "statement": "Decoding the base64 encoding (either alphabet, with or without padding) of any bytes returns them; decoding any input never reads outside its tables.", "quantifier": "every byte string and every text", "why_tests_cant": "Infinite domain.", "anchors": ["enclave/util/base64.cc:Base64Encode", "enclave/util/base64.cc:B64DecodeInline"]}
{"id": "C49", "title": "Client sessions never cross", "statement": "A client id is never reused, a response is encrypted only with the session the request came from, and after close no further response is produced for it; key rotation keeps the handshake key and the attestation that vouches for it paired.", "quantifier": "every sequence of new/receive/close/rotate/refresh events", "why_tests_cant": "Interleavings of rotation with handshakes.", "anchors": ["enclave/client/client.cc:ClientManager::NewClient", "enclave/client/client.cc:ClientManager::GetClient", "enclave/client/client.cc:ClientManager::RefreshAttestation", "enclave/core/core.cc:Core::HandleExistingClient"]}
{"id": "C50", "title": "Accepted configurations are safe to run", "statement": "A configuration accepted at start keeps every divisor and comparison of timers meaningful: election ticks exceed heartbeat ticks, which are positive, and voting limits are ordered.", "quantifier": "every configuration", "why_tests_cant": "All parameter values.", "anchors": ["enclave/core/core.cc:Core::ValidateConfig", "enclave/core/core.cc:ValidateRaftGroupConfig", "enclave/raft/raft.cc:Raft::RandomElectionTimeout"]}
{"id": "C51", "title": "Joining, voting, leaving and joining again keep the group in agreement", "statement": "Whatever sequence of join, membership, voting and removal requests core.cc makes on behalf of hosts, at whatever times they arrive, two replicas never commit different entries at the same index. In particular telling a replica to join (again) never lets it vote twice in a term or take back what it acknowledged.", "quantifier": "every schedule of host commands, peer transactions, Raft messages, elections and commits", "why_tests_cant": "Needs particular interleavings of late peer transactions, elections and membership changes.", "anchors": ["enclave/core/core.cc:Core::HandleJoinRaft", "enclave/core/core.cc:Core::HandleRequestRaftMembership", "enclave/core/core.cc:Core::HandleRequestRaftVoting", "enclave/core/core.cc:Core::HandlePeerRequestedRaftRemoval", "enclave/core/core.cc:Core::HandleRaftMembershipChange"]}
{"id": "C52", "title": "A replica whose commit or promise index was rolled back never moves it again", "statement": "The commit and promise index of a replica are guarded by leaves of the integrity tree that hold a prefix of the hash of the entry at each index. In a group nobody tampers with the leaves are always right, so the check never fails. If somebody changes the indexes, the entries at them or the leaves in memory so that a leaf is wrong or does not lead to the root, no later call moves the commit or promise index, whatever messages, requests and ticks follow.", "quantifier": "every reachable state, every changed memory, every later sequence of calls", "why_tests_cant": "Tests tamper with one field in one state and make one call; the claim is about all later calls, including ones that discard or replace log entries.", "anchors": ["enclave/raft/raft.cc:Raft::VerifyMerkleTree", "enclave/raft/raft.cc:Raft::UpdateMerkleTree", "enclave/raft/raft.cc:MerkleHashFromLogIter", "enclave/raft/raft.cc:Raft::MaybeChangeStateAndSendMessages", "enclave/raft/raft.cc:Raft::HandleAppendRequest"]}
{"id": "C53", "title": "Messages between two enclaves arrive in order, unaltered and once, across key changes", "statement": "While a session between two connected enclaves lasts, the encrypted messages a receiver accepts are a beginning of those the other side sent, in order, once each and unaltered, whatever the hosts drop, repeat, reorder, cut or replace; this holds across the changes of key every 256 messages, which both ends make at the same point. If everything is carried, everything arrives and both ends have the same key, nonce and count.", "quantifier": "all sequences of sent messages, all sequences of received data, all starting counts and nonces, any lawful AEAD without forgeries among the packets opened", "why_tests_cant": "Tests send a handful of messages; the point where the eight-bit counters wrap, packet boundaries and adversarial reorderings across a key change are not enumerated.", "anchors": ["enclave/peers/peers.cc:71-99", "enclave/peers/peers.cc:101-165", "enclave/noise/noise.cc"]}
{"id": "C54", "title": "TPM quotes, signatures and registers are read exactly", "statement": "Whatever bytes they are given, the parsers of TPM 2.0 quotes, of their signatures and of register values read nothing outside of them. They accept exactly the bytes of a quote over all 24 registers of the SHA256 bank, of an RSASSA signature of 2048 bits, and of 24 values of 32 bytes, and each accessor then returns that quote's field. No two quotes have the same bytes, so that a signature over the bytes is one over the quote.", "quantifier": "all byte strings, all quotes", "why_tests_cant": "Tests parse a few recorded quotes; a field whose length is not checked, or two readings of the same bytes, show only for crafted input.", "anchors": ["enclave/attestation/tpm2/tpm2.cc", "enclave/attestation/tpm2/tpm2.h"]}
{"id": "C55", "title": "The hypervisor's table of certificates is read within bounds", "statement": "CertificatesToEndorsements reads nothing outside of the buffer the hypervisor fills, succeeds exactly on tables whose certificates lie inside of it, and sets each certificate to that of the last entry with its GUID.", "quantifier": "all tables of any number of entries, all offsets and lengths", "why_tests_cant": "The hypervisor is not trusted and can choose any 32 bit offsets and lengths; sums that wrap around are not among the recorded tables.", "anchors": ["enclave/attestation/sev/sev.cc:CertificatesToEndorsements"]}
{"id": "C56", "title": "TPM and SEV-SNP evidence is accepted only for keys quoted by the same software", "statement": "Attest of the Azure and GCP environments accepts evidence exactly when the platform's certificate chains to AMD, the SNP report is signed by it and commits to the runtime data, that data names the attestation key, its certificate chains to the vendor's roots, the TPM's quote is signed by it, covers the presented registers and has the hash of the attestation data as its nonce, and the registers that matter equal those of the own machine. The returned key is that of the attestation data, and each value for the minimums is the lower of what the report and the data say. If certified keys sign nothing but quotes, an accepted key was put into a quote by a machine whose registers agree with the own ones. On Azure the report and the runtime data are exactly those parts of the firmware's buffer, without trailing zeros, and a shorter buffer is refused.", "quantifier": "all evidence, endorsements, times, roots and local registers; any signature, hash and certificate library", "why_tests_cant": "Tests accept a recorded evidence and reject a handful of altered ones; that no step is missing for any other evidence is a claim about all of them.", "anchors": ["enclave/attestation/tpm2snp/tpm2snp.cc", "enclave/env/azuresnp/azuresnp.cc", "enclave/env/gcpsnp/gcpsnp.cc", "enclave/attestation/tpm2/tpm2.cc", "enclave/attestation/sev/sev.cc"]}
{"id": "C57", "title": "Guests whose policy allows debugging or migration are not accepted", "statement": "Attest of the SEV-SNP environments accepts no evidence whose SNP report has a policy that allows debugging or a migration agent, or a version or signature algorithm other than those the code is made for.", "quantifier": "all evidence and endorsements", "why_tests_cant": "Tests use evidence of one platform with one policy.", "anchors": ["enclave/attestation/sev/sev.cc:ValidateReport", "enclave/attestation/tpm2snp/tpm2snp.cc", "enclave/attestation/sev/sev.cc:ReportFromVerifiedBuffer"]}
{"id": "C58", "title": "COSE messages are read exactly", "statement": "ParseFromBytes accepts exactly the COSE messages as AWS makes them: an array of four items, whose protected header is the map that says ES384, with an empty unprotected header, a payload that is not empty, and a signature of 96 bytes. It returns these.", "quantifier": "all byte strings, any CBOR decoder", "why_tests_cant": "Tests parse one recorded document; which other headers pass is a claim about all of them.", "anchors": ["enclave/attestation/nitro/nitro.cc:CoseSign1::ParseFromBytes", "enclave/attestation/nitro/nitro.cc:CoseSign1::Valid"]}
{"id": "C59", "title": "Nitro evidence is accepted only for keys attested by the same image", "statement": "Attest of the Nitro environment accepts evidence exactly when it is a COSE message whose payload is an attestation document with the mandatory fields and legal values, whose certificate chains through the document's bundle to AWS's root at the time or an hour before or after, whose signature over the COSE signature structure verifies with the certificate's key, and whose registers 0, 1 and 2 equal those of the own image. The signed bytes determine header and payload. If certified keys sign nothing but attestation documents, an accepted key was put into a document by a machine with the same registers.", "quantifier": "all evidence, times, roots and local registers; any signature, hash and certificate library and CBOR decoder", "why_tests_cant": "Tests accept one recorded document and reject a few altered ones; that no step is missing for any other evidence is a claim about all of them.", "anchors": ["enclave/attestation/nitro/nitro.cc", "enclave/env/nsm/nsm.cc:Attest"]}
{"id": "C60", "title": "Attestation of arbitrary evidence returns", "statement": "Whatever bytes a host or another enclave presents as evidence and endorsements, Attest returns, without undefined behaviour and without stopping the enclave.", "quantifier": "all byte strings as evidence and endorsements", "why_tests_cant": "Crafted certificates, JSON documents and lengths are needed to get to the unchecked pointers, assertions and allocations.", "anchors": ["enclave/attestation/tpm2snp/tpm2snp.cc", "enclave/attestation/sev/sev.cc:ReportFromVerifiedBuffer", "enclave/util/base64.cc", "enclave/attestation/nitro/nitro.cc", "enclave/attestation/oe/attestation.cc"]}
{"id": "C61", "title": "SGX evidence is accepted only from the same enclave, and its TCB number is held to the minimum", "statement": "Attest on SGX accepts evidence exactly when OpenEnclave verifies it at the group's time, its MRENCLAVE equals the own one, its TCB info has an evaluation data number, and its first custom claim is a key of 32 bytes. It returns that key, and the number as the value for the minimums; evidence whose number is below the limit does not pass the minimums.", "quantifier": "all evidence, endorsements, times and MRENCLAVEs; any verifier and JSON parser", "why_tests_cant": "Tests run in simulation, where none of this code runs.", "anchors": ["enclave/env/sgx/sgx.cc:Attest", "enclave/env/sgx/sgx.cc:ValidateStandardClaims", "enclave/attestation/oe/attestation.cc"]}
{"id": "C62", "title": "SGX enclaves that can be debugged are not accepted", "statement": "Attest on SGX accepts no evidence of an enclave that runs in debug mode. MRENCLAVE does not cover that attribute.", "quantifier": "all evidence and endorsements", "why_tests_cant": "Tests run in simulation.", "anchors": ["enclave/env/sgx/sgx.cc:Attest", "enclave/env/sgx/sgx.cc:ValidateStandardClaims"]}
{"id": "C63", "title": "Databases on the shared Merkle tree behave as if integrity checks always succeeded", "statement": "The rows of a database have their leaves in one Merkle tree, shared with Raft and the core. As long as nobody writes over memory: every log entry, row batch and replacement of the database gives what it gives when integrity checks always succeed, no operation of the tree fails or touches freed memory, every row verifies with its hash and no other, and every leaf of the other users verifies with exactly the hash it was last given.", "quantifier": "all four databases; all histories of log entries, row batches, replacements of the database, and operations of other users on their own leaves, in any order; any memory addresses that are free; any hash functions", "why_tests_cant": "Tests of a database use small trees without other users, and a tree that changes shape under other users shows its faults only for particular orders of many operations.", "anchors": ["enclave/db/db2.cc", "enclave/db/db3.cc", "enclave/db/db4.cc", "enclave/db/db5.cc", "enclave/merkle/merkle.cc", "enclave/core/core.cc:db_last_applied_log_leaf", "enclave/raft/raft.cc:UpdateMerkleTree"]}
{"id": "C64", "title": "Rows and tree hashes written over together are refused or genuine", "statement": "After any history, let rows and hashes of the tree be replaced with anything, except the root hash. Unless hashes collide, a request that releases a secret or uses a try on a row either refuses, releasing and changing nothing, or the row has its genuine content and the answer is the genuine one. In particular, an old row put back together with its old hashes is refused.", "quantifier": "all four databases, all histories as in C63, all contents written; any hash functions", "why_tests_cant": "An attacker chooses the contents; tests try single corruptions of one row.", "anchors": ["enclave/db/db2.cc:Restore", "enclave/db/db2.cc:Expose", "enclave/db/db3.cc:Evaluate", "enclave/db/db4.cc:Restore1", "enclave/db/db4.cc:RotateStart", "enclave/db/db4.cc:RotateCommit", "enclave/db/db4.cc:RotateRollback", "enclave/db/db5.cc:Download", "enclave/merkle/merkle.cc:Verify"]}
{"id": "C65", "title": "Threads never wait for each other in a circle", "statement": "The mutexes of the enclave (Raft state, log transactions, peer transactions, peer table, peers, minimums, timers, configuration, client table, clients, client states, clock, socket) are never waited for in a circle, nor does a thread wait for a mutex that it holds; a thread that has work to do either can go on or waits, through others, for one that can; and a thread that is done with its message holds no mutex.", "quantifier": "any number of threads, messages, peers, clients, stored callbacks and timers, and any interleaving", "why_tests_cant": "A deadlock needs a particular interleaving of particular messages and failures to send; tests mostly run on one thread with one or two interleavings.", "anchors": ["enclave/core/core.cc", "enclave/peers/peers.cc", "enclave/client/client.cc", "enclave/timeout/timeout.cc", "enclave/minimums/minimums.cc", "enclave/groupclock/groupclock.cc", "enclave/socketwrap/socket.cc", "enclave/core/core.cc:SendNextReplicationState", "enclave/core/core.cc:SendE2ETransaction"]}
{"id": "C66", "title": "Joining never follows a null pointer, and members have a complete copy", "statement": "Whatever the host asks and whatever happens to peers, transactions, timers and memberships, as long as peers are honest the enclave never follows a null pointer of its Raft state nor fails an assertion about that state; and when it asks for membership or is a member, its database and log were created with the group or were copied by a replication that was sent to its end.", "quantifier": "all sequences of host requests, connections, resets, responses, timeouts, pushes, log entries applied and membership changes; any failures to send", "why_tests_cant": "Tests join once, with one peer and without interruptions; the faults need a particular order of requests and late responses.", "anchors": ["enclave/core/core.cc:HandleJoinRaft", "enclave/core/core.cc:JoinRaftFromFirstPeer", "enclave/core/core.cc:RequestRaftReplication", "enclave/core/core.cc:PromoteRaftToLoaded", "enclave/core/core.cc:RaftRequestMembership", "enclave/core/core.cc:HandleReplicateStatePush", "enclave/core/core.cc:SendNextReplicationState", "enclave/core/internal.h:ClearState"]}
{"id": "C67", "title": "Every request of the host is answered exactly once", "statement": "Of the requests with a number of their own that the host makes, each is answered at most once, nobody is answered who did not ask, and each that was not answered is kept by something that will answer it: a stored transaction with a peer or of the log or, for a request to join, the state of joining.", "quantifier": "all kinds of host requests, all sequences of events as for C66", "why_tests_cant": "A lost or doubled response depends on which of several outstanding transactions fails, and when; tests check the response of one request at a time.", "anchors": ["enclave/core/core.cc:HandleHostToEnclave", "enclave/core/core.cc:ReplyWithError", "enclave/core/core.cc:RaftWriteLogTransaction", "enclave/core/core.cc:AddLogTransaction", "enclave/core/core.cc:SendE2ETransaction", "enclave/core/core.cc:ResetPeer", "enclave/core/core.cc:HandleJoinRaft", "enclave/core/core.cc:RaftRequestMembership"]}
{"id": "C68", "title": "Random bytes are asked for, used once, and errors reported", "statement": "RandomBytes of every environment either returns an error, which it does only if the source of randomness failed, or has overwritten exactly the bytes asked for, each with a byte that the source returned during this call, using none twice; it never writes outside the buffer, and it stops as soon as the source has returned enough.", "quantifier": "all buffer sizes and all behaviours of the source: any sequence of short results, full results and errors", "why_tests_cant": "Sources almost never return short results or fail, so tests only see the first iteration of the loop.", "anchors": ["enclave/env/socket/socket.cc:RandomBytes", "enclave/env/nsm/nsm.cc:RandomBytes", "enclave/env/sgx/sgx.cc:RandomBytes"]}
{"id": "C69", "title": "Processor time is counted exactly once", "statement": "Between two readings of the clock the time is added to the counter of the innermost measurement and to no other; so all counters together grow by exactly the time during which the innermost measurement has a counter.", "quantifier": "all nestings of measurements with and without counters, all clock values, modulo 2^64", "why_tests_cant": "Counting the same time twice, or losing it, shows only in sums over deep nestings of calls and is hidden by noise of the clock.", "anchors": ["enclave/context/context.cc:CPUMeasurement", "enclave/context/context.cc:SetContext", "enclave/context/context.h:MEASURE_CPU"]}
{"id": "C70", "title": "The enclave is started once and only the started core handles messages", "statement": "However many threads call svr2_init and svr2_input_message, and in whatever order their steps are interleaved: there is no data race on the core nor is it used while null, the environment is never initialised by two threads at a time, at most one start succeeds, no message is handled before it or by another core, all are let in after it, and after a failed start another can be tried.", "quantifier": "any number of threads and calls, all interleavings, any of the steps failing", "why_tests_cant": "Races depend on the interleaving of threads; tests start the enclave once from one thread.", "anchors": ["enclave/ecalls/ecalls.cc:svr2_init", "enclave/ecalls/ecalls.cc:svr2_input_message"]}
{"id": "C71", "title": "The server process survives health checks and answers every message once", "statement": "Off SGX the process takes the first connection that says hello, passing over connections closed without data and interrupted accepts; it requires an init message first; every message read is handed to the core once, in order, and answered once with its number, at most 32 being in progress; it dies exactly if something other than a message is read or the core cannot be made.", "quantifier": "all sequences of connections and messages, all interleavings of the threads", "why_tests_cant": "There are no tests of this file; interruptions and interleavings depend on the system.", "anchors": ["enclave/socketmain/socketmain.cc:AcceptSocket", "enclave/socketmain/socketmain.cc:RunServerThread", "enclave/socketmain/socketmain.cc:InitCore", "enclave/socketmain/socketmain.cc:RunServer"]}
{"id": "C72", "title": "A replica's log never fills up for good", "statement": "A leader takes a request whenever the entries from its last applied one on, together with the new entry, fit into the configured size of its log; so a replica that applies what is committed can always go on appending, also after its uncommitted entries were replaced by another leader's.", "quantifier": "all reachable states of all groups, all requests, and all continuations", "why_tests_cant": "The space lost depends on what was cancelled over the whole life of a replica; the unit test of CancelFrom checks indexes only, and a log filled by a deposed leader takes a long partition.", "anchors": ["enclave/raft/log.cc:CancelFrom", "enclave/raft/log.cc:Append", "enclave/raft/raft.cc:LogAppend"]}
{"id": "C73", "title": "Row objects that cease to exist leave zeros behind", "statement": "Whatever log entries are applied, rows received and databases destroyed, any row object anywhere in memory, present or past, in a map node or a local variable, that holds anything but zeros holds the secrets of a row the database has now. So a secret that was deleted, replaced, or guessed at too often is gone from row memory.", "quantifier": "all histories of all four databases, all places the allocator and the stack choose, whatever the Merkle tree answers, whatever the compiler does with dead stores", "why_tests_cant": "A test sees answers, not freed memory; the copies left depend on move constructors and destructors along each path and on the optimiser.", "anchors": ["enclave/db/db2.cc:Clear", "enclave/db/db2.cc:LoadRowsFromProtos", "enclave/db/db3.cc:Remove", "enclave/db/db4.cc:Row", "enclave/db/db5.cc:Row", "enclave/util/bytes.cc:MemZeroS"]}
{"id": "C74", "title": "A running quorum can always go on", "statement": "Whenever a quorum of the voting replicas of a group is running and they can reach each other, there is a course of events among them alone after which one of them leads and has committed all the entries of its log. So data committed by a group is lost only when fewer than a quorum of its replicas is left.", "quantifier": "all reachable states of all groups, all quorums of the voters, all futures in which only they run", "why_tests_cant": "It says what is possible from every state a group can be in; the states from which nothing is possible need a leader of one term to replicate an entry of an earlier term and to fail at one exact moment.", "anchors": ["enclave/raft/raft.cc:MaybeAdvanceCommitIndex", "enclave/raft/raft.cc:CheckLogHash", "enclave/raft/raft.cc:HandleVoteRequest"]}
{"id": "C75", "title": "Log matching", "statement": "In a group whose voters do not change, entries found at one index with one term, in logs, in messages or among those handed to databases, at any two times, are the same entry. If two logs have entries of one term at one index they are the same up to there.", "quantifier": "all reachable states of all groups, all pairs of moments, all places an entry can be in", "why_tests_cant": "It relates every place an entry can be in at all pairs of moments of executions of any length, with any loss, delay and duplication of messages.", "anchors": ["enclave/raft/raft.cc:HandleAppendRequest", "enclave/raft/raft.cc:AppendEntries", "enclave/raft/raft.cc:MaybeBecomeLeader"]}
{"id": "C76", "title": "Leaders have what is committed", "statement": "In a group whose voters do not change, a replica that leads in a term later than the one in which an entry was committed has that entry in its log (leader completeness).", "quantifier": "all reachable states of all groups, all committed entries, all later leaders", "why_tests_cant": "It relates a commit by one replica to the log of whoever is elected at any later time; the executions in which it fails need a leader to commit an entry of an earlier term and to have a rival with a longer log of a term between.", "anchors": ["enclave/raft/raft.cc:MaybeAdvanceCommitIndex", "enclave/raft/raft.cc:CheckLogHash", "enclave/raft/raft.cc:HandleVoteRequest"]}
{"id": "C77", "title": "Evidence that a started enclave makes is accepted by its like", "statement": "Once Init has come to its end, evidence that Evidence makes for attestation data is accepted by Attest of every enclave with the same measurements, as long as the certificates are valid, and gives the key in that data, with the values for the minimums that the platform has. Evidence returns whatever the commands it runs do, and Init on Azure and GCP comes to its end only if the enclave's own evidence is accepted.", "quantifier": "all outcomes of commands, devices and files, all attestation data, all times, all pairs of machines", "why_tests_cant": "It relates what one machine makes with certificates, hardware and files of its own to what any other accepts at another time; tests use recorded evidence or simulated environments.", "anchors": ["enclave/env/azuresnp/azuresnp.cc:Init", "enclave/env/azuresnp/azuresnp.cc:CurrentEvidence", "enclave/env/gcpsnp/gcpsnp.cc:Init", "enclave/env/gcpsnp/gcpsnp.cc:Evidence", "enclave/env/gcpsnp/gcpsnp.cc:SnpReport", "enclave/env/nsm/nsm.cc:Evidence", "enclave/env/sgx/sgx.cc:Evidence", "enclave/fs/fs.cc:FileContents"]}
{"id": "C78", "title": "Answers are those of one database, in an order that respects time", "statement": "There is one sequence of log entries such that every request a client was told the success of is one of them, and its answer is the one that a single database gives to it after all entries before it. Two different requests are two different entries, and a request that was taken by a leader after another one had been answered comes after it. For SVR2: each account's answers are those of one vault that handles the requests one after the other in this order.", "quantifier": "all groups with fixed voters, all schedules of messages, elections, crashes, joins and requests, all numbers of clients, all replicas at which handlers wait", "why_tests_cant": "Linearizability is about all interleavings of requests with elections, forwarding and retransmission; a test run shows one of them.", "anchors": ["enclave/core/core.cc:HandleExistingClient", "enclave/core/core.cc:RaftWriteLogTransaction", "enclave/core/core.cc:HandleRaftWrite", "enclave/core/core.cc:AddLogTransaction", "enclave/core/core.cc:RaftHandleCommittedLogs", "enclave/core/core.cc:HandleLogTransactionsForRaftLog", "enclave/raft/raft.cc:LogRequest", "enclave/raft/raft.cc:TakeCommittedLog"]}
{"id": "C79", "title": "Answers are those of one database, in an order that respects time, while the voters change", "statement": "With a super majority of at least 1, also in a group that replicas join, in which they become members and voters and from which they are removed: there is one sequence of log entries such that every request a client was told the success of is one of them, and its answer is the one that a single database gives to it after all entries before it. If no replica joins twice, two different requests are two different entries, and a request that was taken by a leader after another one had been answered comes after it.", "quantifier": "all groups, all sequences of membership changes, all schedules of messages, elections, crashes, joins and requests, all replicas at which handlers wait", "why_tests_cant": "What holds while voters change holds of all interleavings of changes, elections and requests, and a test run shows one of them.", "anchors": ["enclave/core/core.cc:HandleExistingClient", "enclave/core/core.cc:HandleRaftWrite", "enclave/core/core.cc:RaftHandleCommittedLogs", "enclave/core/core.cc:HandleLogTransactionsForRaftLog", "enclave/core/core.cc:HandleRequestRaftMembership", "enclave/core/core.cc:HandleRequestRaftVoting", "enclave/core/core.cc:NextReplicaGroup", "enclave/raft/raft.cc:LogRequest", "enclave/raft/raft.cc:HandleVoteRequest", "enclave/raft/raft.cc:MaybeChangeUncommittedMembershipsBasedOnLog"]}
{"id": "C80", "title": "The queue between threads keeps its order and loses no wake-up", "statement": "Elements leave a Queue once and in the order in which they were pushed, the queue never holds more than its maximum, and a call of Pop returns what it took out. If no new calls come, the threads come to rest, and then a thread sleeps in Pop only if the queue is empty, in Push only if it is full and in Flush only if elements pushed before are still there. Flush returns true exactly if all elements pushed before it have been taken out. Nothing is undefined behaviour.", "quantifier": "all numbers of threads, all sizes, all calls, all interleavings including spurious wake-ups", "why_tests_cant": "A lost wake-up needs one particular order of the steps of several threads, and an uninitialised counter usually happens to be zero.", "anchors": ["enclave/queue/queue.h:Push", "enclave/queue/queue.h:Pop", "enclave/queue/queue.h:Flush"]}
{"id": "C81", "title": "The thread that writes to the host is woken whenever there is something to write", "statement": "In WriteQueue no check fails, and when no thread can go on by itself, everything that was handed to WritePB has been sent, no thread is waiting in FlushIfAble, and the writing thread sleeps, unless the socket failed or the thread was told to stop. Without new calls this state is reached after a bounded number of steps.", "quantifier": "all numbers of threads calling WritePB and FlushIfAble, all interleavings including spurious wake-ups and time-outs", "why_tests_cant": "Whether a notification can fall between the test of a condition and the sleep depends on the interleaving; tests practically never hit it.", "anchors": ["enclave/socketwrap/socket.cc:WritePB", "enclave/socketwrap/socket.cc:WriteThread", "enclave/socketwrap/socket.cc:FlushIfAble", "enclave/socketwrap/socket.cc:KillThread"]}
{"id": "C82", "title": "A group of SVR3, SVR4 or SVR5 answers as one account does, and keeps its limits", "statement": "There is one list of entries of which every replica has applied a beginning, and each account's requests in it are answered, by whichever replicas, as one account that handles them one after the other; calls are answered in an order that respects time. Hence in the whole group at most n evaluations (SVR3) or evaluated Restore1 (SVR4) are answered after a Create with n tries until the next Create that sets tries, and a Download (SVR5) asked for after an Upload was answered does not answer with older data.", "quantifier": "all groups, schedules, leader changes, crashes, lost, repeated and reordered messages, and all requests", "why_tests_cant": "A replica that evaluates once more than allowed after a change of leader, or answers with older data, needs a particular schedule of several replicas.", "anchors": ["enclave/core/core.cc:RaftHandleCommittedLogs", "enclave/db/db3.cc:Run", "enclave/db/db4.cc:Run", "enclave/db/db5.cc:Run", "enclave/raft/raft.cc:TakeCommittedLog"]}
{"id": "C83", "title": "Limits on guesses hold in a group even if integrity checks fail at some replicas", "statement": "However the integrity checks of requests end at each replica, after a backup (SVR2) or a Create (SVR3, SVR4) that allows n guesses, and until the account's next one, all replicas of the group together answer no more guesses than without failed checks.", "quantifier": "all groups, schedules, requests, and all patterns of failed checks at each replica", "why_tests_cant": "The checks only fail if memory was damaged, and the replicas must fail at different requests.", "anchors": ["enclave/db/db2.cc:Restore", "enclave/db/db3.cc:Evaluate", "enclave/db/db4.cc:Restore1", "enclave/merkle/merkle.cc:Verify", "enclave/core/core.cc:RaftHandleCommittedLogs"]}
{"id": "C84", "title": "Answers give nothing away about a secret but the outcome of counted guesses", "statement": "Someone who sees every answer, chooses every further request (any account, any order, in the light of all answers so far) and can make integrity checks fail learns about a secret backed up under a PIN (SVR2) only whether the PINs tried, at most as many as the backup allows, are the right one, and whether data shown by Expose begins with the secret: any other PIN that was not tried and any other secret that was not shown would have given exactly the same answers. About a key of SVR3 they learn only its products with the elements evaluated, at most as many as the Create allows, and with the Create's.", "quantifier": "all secrets, PINs, keys, and all adaptive sequences of requests, for all databases that can arise", "why_tests_cant": "It compares two runs for all pairs of secrets and all strategies of someone who adapts to the answers; a test sees one run.", "anchors": ["enclave/db/db2.cc:Backup", "enclave/db/db2.cc:Restore", "enclave/db/db2.cc:Expose", "enclave/db/db2.cc:Tries", "enclave/db/db3.cc:Create", "enclave/db/db3.cc:Evaluate", "enclave/db/db3.cc:Query"]}
{"id": "C85", "title": "An SVR4 encryption share leaves the enclave in an answered Restore2 only", "statement": "Someone who sees every answer and chooses every request, entry and session in the light of them, and can make integrity checks fail, sees exactly the same whatever encryption shares an owner puts into Creates and whatever deltas of shares into RotateStarts, unless someone other than the owner has a Restore2 answered OK in a session whose Restore1 evaluated the owner's account. Evaluations, errors, counters, versions, rotations and the answers to the owner's own Restore2, but for the share itself, say nothing about the shares.", "quantifier": "all shares and deltas, all databases, any number of sessions, all adaptive sequences of entries and requests", "why_tests_cant": "It compares two runs for all pairs of shares and all strategies of someone who adapts to the answers; a test sees one run.", "anchors": ["enclave/db/db4.cc:Create", "enclave/db/db4.cc:Restore1", "enclave/db/db4.cc:Restore2", "enclave/db/db4.cc:RotateStart", "enclave/db/db4.cc:RotateCommit", "enclave/db/db4.cc:ResponseFromRequest", "enclave/db/db4.cc:ResponseFromEffect"]}
{"id": "C86", "title": "What is logged does not decide what stops the enclave", "statement": "The log level that a host asks for, in the init message or by a request, decides only what is logged: a failed CHECK, a LOG(FATAL) and a signal for an invalid instruction stop the enclave at every level. The level in force is that of the last accepted request.", "quantifier": "all levels, all sequences of requests", "why_tests_cant": "Tests are compiled with the level at its maximum, and cannot survive an abort.", "anchors": ["enclave/util/log.h:LOG", "enclave/util/log.cc:~Log", "enclave/util/macros.h:CHECK", "enclave/core/core.cc:kSetLogLevel", "enclave/socketmain/socketmain.cc:InitCore", "enclave/env/socket/socket.cc:LogFatalSignalHandler"]}
{"id": "C87", "title": "The server process starts with a valid port and socket type only", "statement": "main runs the server exactly if every argument is a socket type or a port that is a decimal number from 1 to 65535, and there is a socket type; it runs it with the last type and the last port given, or port 27427. With other arguments the process ends.", "quantifier": "all lists of arguments", "why_tests_cant": "main is not part of any test.", "anchors": ["enclave/socketmain/socketmain.cc:main"]}
{"id": "C88", "title": "What is removed or overwritten is forgotten", "statement": "Once an account is absent, because of a Delete, Remove or Purge or because its tries are used up, the database is the one of the same history without this account's entries: equal rows, pending rotations, leaf hashes, and answers to all others. After a Backup, an answered Create or an Upload, it is the one of the same history without what was done to the account before (a Create of SVR4 without a number of tries keeps the number that was left). So nothing that is answered or sent to other replicas later depends on what was stored.", "quantifier": "all histories, all outcomes of integrity walks, all accounts, all four databases", "why_tests_cant": "That no trace is left is a statement about pairs of histories, of any length; tests look at the rows they expect.", "anchors": ["enclave/db/db2.cc:Delete", "enclave/db/db2.cc:Backup", "enclave/db/db3.cc:Create", "enclave/db/db3.cc:Remove", "enclave/db/db4.cc:Create", "enclave/db/db4.cc:Remove", "enclave/db/db4.cc:Restore1", "enclave/db/db5.cc:Upload", "enclave/db/db5.cc:Purge"]}
{"id": "C89", "title": "The answers of several SVR4 servers make up one evaluation", "statement": "What an SVR4 server answers to Restore1 for a version is its key share for that version times the blinded element, plus its zero share times a point that depends only on the account and the blinded element. So if the zero shares sum to zero, the answers of the servers sum to the blinded element times the sum of the key shares, and unblinding gives a result that does not depend on the blind. If the deltas of a rotation sum to zero (encryption deltas: cancel out), the answers for the new version sum to those for the old one, and the encryption shares make up the same key; and no request but a Create changes the share behind a version a server still knows, so servers may be at different stages of a rotation.", "quantifier": "any number of servers, all databases replicas can reach, all elements, versions and rotations, any group the primitives implement", "why_tests_cant": "The claim is an identity over all shares and any number of servers, with each server at any stage of a rotation; the unit tests run one server with fixed vectors.", "anchors": ["enclave/db/db4.cc:Restore1", "enclave/db/db4.cc:RotateStart", "enclave/db/db4.cc:RotateCommit", "enclave/db/db4.cc:RotateRollback", "enclave/ristretto/ristretto.cc"]}
{"id": "C90", "title": "The proof of Restore2 is complete, sound for two challenges, and bound to its session", "statement": "A client that knows the logarithm of the account's commitment and proves it as specified gets the encryption share, unless a product happens to be the neutral element. Two accepted proofs with the same point under different challenges give the logarithm of the commitment. The same proof is accepted in two sessions only if their challenges, computed from the proof's point, the blinded element and the handshake, are the same; and for one point in one session only one scalar is accepted.", "quantifier": "all sessions, accounts, points, scalars and versions, any group the primitives implement", "why_tests_cant": "Soundness speaks of all pairs of proofs that anyone may come up with, not of the proofs a test makes.", "anchors": ["enclave/db/db4.cc:ClientState::Restore2", "enclave/db/db4.cc:ClientState::ResponseFromRequest"]}
{"id": "C91", "title": "Of an SVR4 server's key and zero share only the answered evaluations are seen", "statement": "Someone who sees every answer and chooses every request, entry and session in the light of them, and can make integrity checks fail, sees exactly the same for any two choices of the key shares, zero shares and key deltas in an owner's Creates and RotateStarts that give the same evaluations at the Restore1 requests that came to evaluate the account. In particular, if the account was evaluated at one blinded element only, however often and however rotated, then for every other key share there is a zero share with which everything looks the same: one server's answers to one element say nothing about its key share.", "quantifier": "all shares and deltas, all databases, any number of sessions and rotations, all adaptive sequences of entries and requests", "why_tests_cant": "It compares two runs for all pairs of keys and all strategies; a test runs one.", "anchors": ["enclave/db/db4.cc:Create", "enclave/db/db4.cc:Restore1", "enclave/db/db4.cc:RotateStart", "enclave/db/db4.cc:RotateCommit", "enclave/db/db4.cc:RotateRollback", "enclave/db/db4.cc:Query"]}
{"id": "C92", "title": "Uploaded data leaves an SVR5 database as HMACs only, of which there may be any number", "statement": "Someone who sees every answer and chooses every entry in the light of them, and can make integrity checks fail, sees exactly the same for any two choices of the data an owner uploads that give the same HMACs at the downloads of the account that were answered. The database does not limit the number of those: of any number of downloads with any passwords each is answered with its HMAC, and the account stays as it is.", "quantifier": "all data, databases and passwords, all adaptive sequences of entries", "why_tests_cant": "It compares two runs for all pairs of data and all strategies; a test runs one.", "anchors": ["enclave/db/db5.cc:Upload", "enclave/db/db5.cc:Download", "enclave/db/db5.cc:Purge", "enclave/db/db5.cc:Run"]}
{"id": "C93", "title": "An enclave takes in no message of its own", "statement": "Whatever the host asks an enclave to do and whatever it hands to it, including everything the enclave itself sent, and in whatever order threads run: provided the handshake messages and ciphertexts that Noise accepts were made by holders of the keys, the enclave never opens a message from its own key and never completes a handshake that it began with its own key. All the rest of the enclave hears from that key is the notice of a connection, which a host can bring about.", "quantifier": "all libraries, all sequences of calls and host messages, all interleavings of threads", "why_tests_cant": "It depends on every order of the host's messages over any number of handshakes; a test echoes one.", "anchors": ["enclave/peers/peers.cc:PeerManager::RecvFromPeer", "enclave/peers/peers.cc:Peer::Accept", "enclave/peers/peers.cc:Peer::FinishConnection", "enclave/peers/peers.cc:Peer::InternalConnect", "enclave/peers/peers.cc:Peer::Reset"]}
{"id": "C94", "title": "The status an enclave reports is true of its group", "statement": "After any calls and any messages from others, an enclave answers a request for its status without a failed check or a null pointer: the answer lists itself and each peer it knows exactly once, marks exactly the members, the voters and the leader of its current state, and gives the state of replication exactly if it leads and for the peers it keeps a row for, which include every member it knows; peers must not have an id of zeros. In a group, the leader it names became leader of the very term it is in, replicas of the same term name the same leader as long as the voters stay the same, and no leader reports that another replica has more entries than the leader's log.", "quantifier": "all memberships, logs, sequences of calls and messages, all groups and schedules", "why_tests_cant": "It relates the pointer to the leader, the role and the table of followers in every reachable state of a group.", "anchors": ["enclave/core/core.cc:Core::HandleGetEnclaveStatus", "enclave/raft/raft.cc:Raft::FollowerReplicationStatus", "enclave/raft/raft.cc:Raft::leader"]}
{"id": "C95", "title": "Temporary directories are exclusive and leave nothing behind", "statement": "Setting up a temporary directory never aborts; with an error it changes nothing and nothing is removed later, in particular not a directory that was there before; without one the directory is new, nothing was at or below its name, and no other temporary directory alive has the same. When it is destroyed after any directories and regular files were made in it, of any depth and number, the file system is as it was before; in general exactly those entries stay that cannot be removed, that are neither directories nor regular files, or that lead to such, and nothing outside the directory changes.", "quantifier": "all file systems, trees, random bytes and failures of the system", "why_tests_cant": "Trees have any depth and shape, and any subset of removals may fail.", "anchors": ["enclave/fs/fs.cc:TmpDir::Init", "enclave/fs/fs.cc:TmpDir::~TmpDir", "enclave/fs/fs.h:TmpDir"]}
{"id": "C96", "title": "Raft messages and log entries cross the wire unchanged", "statement": "Every Raft message, log entry and replica group that is below the size limit of the parser and whose numbers are 64 bits is parsed as it was serialized, for any number of entries and replicas. Different messages, entries and groups have different serializations at any size, so the hash chain tells memberships apart, and agreement of a group rests on the hash alone. Whatever bytes arrive, a message parsed from them has 64-bit numbers. Fields of unknown number do not change what is parsed.", "quantifier": "all messages, entries, groups and byte strings", "why_tests_cant": "Messages nest lists of any length, with defaults that are left out and lengths whose encodings have any number of digits.", "anchors": ["enclave/proto/raft.proto:RaftMessage", "enclave/proto/raft.proto:LogEntry", "enclave/proto/raft.proto:ReplicaGroup", "enclave/raft/raft.cc:Raft::NextHash"]}
{"id": "C97", "title": "What a client asks for is what every replica runs", "statement": "If the bytes of a client become a log entry of the parser's size, then they parse as a request of that protocol, and every replica runs this very request under the id of that client (for SVR3 with the key made when it was logged): members when they apply the entry, and a replica that is loading unless the row has yet to come; no replica drops the entry and no join fails on it. Fields that the enclave does not know change nothing of this. Database rows cross the wire unchanged. This is not so of requests of the host, which are logged without being validated: members skip such an entry, and a join fails on it.", "quantifier": "all byte strings, ids, databases, states of a joining replica, and requests of the four protocols", "why_tests_cant": "Requests are any bytes, with fields repeated, unknown or left out, and they are serialized again inside another message before they are run elsewhere.", "anchors": ["enclave/core/core.cc:Core::HandleExistingClient", "enclave/core/core.cc:Core::HandleHostDatabaseRequest", "enclave/core/core.cc:Core::MaybeApplyLogToReplicatingDatabase", "enclave/proto/clientlog.proto:Log2", "shared/proto/client.proto:Request", "enclave/proto/e2e.proto:DB2RowState"]}
{"id": "C98", "title": "From the bytes of a request to the bytes of its answer", "statement": "A client's bytes become a log entry, which is committed, applied and answered. Then the bytes parse as a request; the answer is that of one account which has handled one after the other the requests of this client in one list of entries, where a request asked after another was answered comes later; and the bytes of the answer, encrypted and decrypted, are read by the client as this very answer, tries left included. Everything on the way is in its wire format, so that the group rests on the hash alone. The length of an answer is not hidden: the ciphertext of a successful SVR2 restore is always longer than that of a wrong PIN.", "quantifier": "all groups with fixed voters, schedules, byte strings, ids and requests of the four protocols", "why_tests_cant": "Interleavings of requests, elections, losses and repetitions are unbounded, and so are requests; the order of one list must fit all answers of all replicas.", "anchors": ["enclave/core/core.cc:Core::HandleExistingClient", "enclave/core/core.cc:Core::ClientLogTransaction", "enclave/client/client.cc:Client::EncryptResponse", "shared/proto/client.proto:Response", "shared/proto/client3.proto:Response3", "shared/proto/client4.proto:Response4", "shared/proto/client5.proto:Response5"]}
{"id": "C99", "title": "An enclave reads what another enclave wrote", "statement": "Every message between enclaves (Raft message, transaction request with the state it pushes, response with configuration and members, evidence) is read from its wire format as it was written, in whatever order the entries of its maps are written, and different messages have different bytes. Carried by a session, with splitting into packets and changes of key: what the core of the receiver reads of data that is not empty is what the core of the sender sent, in order, once each and unaltered; and what is carried over is read, all of it.", "quantifier": "all messages with numbers that fit their fields, all lists of messages, sessions and data from the host", "why_tests_cant": "Messages, maps and sequences are unbounded, and the host chooses what arrives.", "anchors": ["enclave/proto/e2e.proto:EnclaveToEnclaveMessage", "enclave/peers/peers.cc:Peer::Send", "enclave/peers/peers.cc:Peer::Recv"]}
{"id": "C100", "title": "Two enclaves that connect to each other are connected", "statement": "If two enclaves with good evidence connect to each other and the host delivers everything in order and unaltered, both end up connected and in step in both directions, whatever the state of the two before, and what is then sent either way is read at the other end.", "quantifier": "all keys, evidence, times, limits, randomness and former states of the two peers", "why_tests_cant": "Whether the requests cross depends on the schedule; tests connect from one side.", "anchors": ["enclave/peers/peers.cc:Peer::InternalConnect", "enclave/peers/peers.cc:Peer::Accept", "enclave/peers/peers.cc:Peer::FinishConnection", "enclave/peers/peers.cc:Peer::Recv"]}
{"id": "C101", "title": "State sent to another enclave fits into messages and is read as it was sent", "statement": "Whatever its database and log, an enclave that sends its state to one that joins makes pushes of at most 17/16 of the configured chunk size and its largest log entry, plus a fixed number of bytes per row that the advertised row size leaves out, plus members and limits; likewise for the log entries a leader sends. So if these leave room in a protobuf message, every push, with its rows of SVR2, SVR3, SVR4 or SVR5, its entries, members and limits, and every message with entries is read as it was sent, at any time in any run of replication.", "quantifier": "all databases that meet the invariant, all logs, members, limits, cursors and chunk sizes", "why_tests_cant": "Databases and logs are unbounded, and the sizes are estimates that are off by little.", "anchors": ["enclave/core/core.cc:Core::SendNextReplicationState", "enclave/core/core.cc:Core::HandleReplicateStatePush", "enclave/raft/raft.cc:Raft::AppendEntries", "enclave/proto/e2e.proto:ReplicateStatePush"]}
{"id": "C102", "title": "What is taken for random was given by the source of randomness", "statement": "Every caller of RandomBytes in the enclave (libsodium, Noise, SipHash keys, the Merkle tree, ids of groups and of replications, the seed of rand, names of directories) uses a value only if all of its bytes were returned by calls of the environment's source of randomness, and never what the memory held before; it stops or gives up only if a call failed or there is no environment yet.", "quantifier": "all environments, all sequences of results of the source, all contents of memory", "why_tests_cant": "Sources of randomness do not fail in tests, and short or failing calls can come in any order.", "anchors": ["enclave/env/env.cc:env_randombytes_bytes", "enclave/noisewrap/wrap.cc:__wrap_noise_rand_bytes", "enclave/sip/hasher.cc:Full::Full", "enclave/merkle/merkle.cc:SetSIPKey", "enclave/core/core.cc:Core::HandleCreateNewRaftGroupRequest", "enclave/core/core.cc:Core::RequestRaftReplication", "enclave/ecalls/ecalls.cc:SeedWeakRandom"]}
{"id": "C103", "title": "A leader hands over only to a voter that has its whole log and is still there", "statement": "If a call on a replica leaves a TimeoutNow message, it is the last message the call leaves; the replica had been asked to give up leadership, now is a follower in the same term, and had taken no requests in between; the message goes to another voting member that has confirmed, in this term and with the right hash, the last entry of the replica's log; and it confirmed that entry after the replica was asked.", "quantifier": "all created replicas, all sequences of calls with any messages, all configurations", "why_tests_cant": "Handing over depends on the order of requests, acknowledgements, membership changes and failures to append, which can interleave in any way.", "anchors": ["enclave/raft/raft.cc:Raft::RelinquishLeadership", "enclave/raft/raft.cc:Raft::TryToRelinquishLeadership", "enclave/raft/raft.cc:Raft::MaybeChangeStateAndSendMessages", "enclave/raft/raft.cc:Raft::HandleAppendResponse", "enclave/raft/raft.cc:Raft::LogRequest"]}
{"id": "C104", "title": "A host that asks its enclave to give up leadership is told whether that happened", "statement": "When a host asks a leader to give up leadership and is told of success, another replica has become leader after the request; and when the replica to which leadership was handed over becomes leader, the host is told of success.", "quantifier": "all groups with fixed voters, all deliveries, losses, delays and reorderings of messages, all points in time at which the request is made and answered", "why_tests_cant": "The answer is tied to one log index and one term. Whether these mean what the code takes them to mean depends on elections after the request, with any messages lost.", "anchors": ["enclave/core/core.cc:Core::HandleRelinquishLeadership", "enclave/core/core.cc:Core::HandleLogTransactionsForRaftLog", "enclave/raft/raft.cc:Raft::RelinquishLeadership", "enclave/raft/raft.cc:Raft::TryToRelinquishLeadership"]}
{"id": "C105", "title": "A host that is told that its request for a user succeeded can rely on it", "statement": "When the host asks for a request to be carried out for a user, such as a deletion, and is told of success, the replica has carried out the request on its database; after a deletion there is no row of that user.", "quantifier": "all four database protocols, all database states, all user ids and requests, all committed entries", "why_tests_cant": "The answer to the host depends only on which entry is committed and not on what the database did with it; that the two agree is a statement about all requests and all database states.", "anchors": ["enclave/core/core.cc:Core::HandleHostDatabaseRequest", "enclave/core/core.cc:Core::HandleLogTransactionsForRaftLog", "enclave/db/db2.cc:DB2::Delete", "enclave/db/db3.cc:DB3::Remove", "enclave/db/db4.cc:DB4::Remove", "enclave/db/db5.cc:DB5::Purge"]}
{"id": "C106", "title": "A replication advances with every push, and ends", "statement": "With a chunk size that the configuration check accepts, every push of a replication carries a log entry or a row or is the last one. While the sending member's log and database stay as they are, the replication ends after at most one push for each log entry and each row, and one more.", "quantifier": "all four database protocols, all logs and databases of any size, all chunk sizes that the configuration check accepts, all contents of entries and rows", "why_tests_cant": "How many rows fit depends on the chunk, the size of the entries already in the push and the largest row; a push without room would be sent again for ever, which a test only meets at one combination of sizes.", "anchors": ["enclave/core/core.cc:Core::SendNextReplicationState", "enclave/core/core.cc:Core::HandleReplicateStateRequest", "enclave/core/core.cc:Core::ValidateConfig", "enclave/db/db2.cc:DB2::Protocol::MaxRowSerializedSize", "enclave/db/db3.cc:DB3::Protocol::MaxRowSerializedSize", "enclave/db/db4.cc:DB4::Protocol::MaxRowSerializedSize", "enclave/db/db5.cc:DB5::Protocol::MaxRowSerializedSize"]}
{"id": "C107", "title": "A write enters the log only of a leader that is ready for it, as it was sent", "statement": "An entry that a client or another member asks for enters the log only of a leader that is part of a group, has the least number of voters and knows the time of a quorum of voters. It is entered behind the end of the log, with the leader's term and the content that was given, also after it was forwarded, and the place that is reported is where it is.", "quantifier": "all states of a replica reached by any calls, all entries, all bytes that another member sends", "why_tests_cant": "There are two ways into the log with their own checks; that both keep the same conditions in all states and for all bytes is not seen from sample requests.", "anchors": ["enclave/core/core.cc:Core::HandleRaftWrite", "enclave/core/core.cc:Core::RaftWriteLogTransaction", "enclave/raft/raft.cc:Raft::LogRequest"]}
{"id": "C108", "title": "By asking, a replica changes only its own place in the group", "statement": "When a replica asks a member to let it join, vote or be removed and the request is taken, the member is a leader, is part of a group and knows the time of a quorum of voters, and the membership that enters its log differs from the present one exactly in the place of that replica: it is added without a vote, gets a vote, or is gone.", "quantifier": "all states of a replica reached by any calls, all memberships of any size, all replicas that ask, all three requests", "why_tests_cant": "Each request rebuilds the whole membership from its serialized form; that nobody else's place or vote changes is a statement about all memberships.", "anchors": ["enclave/core/core.cc:Core::HandleRequestRaftMembership", "enclave/core/core.cc:Core::HandleRequestRaftVoting", "enclave/core/core.cc:Core::HandlePeerRequestedRaftRemoval", "enclave/raft/membership.cc:Membership::AsProto", "enclave/raft/raft.cc:Raft::LogRequest"]}
