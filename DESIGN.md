# Design: a Lean 4 model of the SVR2 enclave (SecureValueRecovery2)

Source modelled: the C++ enclave in `/repo/enclave` at the pinned commit, read as text. Nothing was built or run.
The model and the proofs are Lean 4 (4.33.0, single modules of Mathlib) in `lean/Verif/`.
`properties.jsonl` has the properties, `MANIFEST.json` the theorems that settle each, `seeded/LOG.jsonl` the wrong programs
the theorems were tried against.

## 1. Trusted base

* The Lean kernel. Every theorem depends on no axioms besides `propext`, `Classical.choice` and `Quot.sound`;
  `lean/Verif/Audit.lean` fails the build if any theorem of the project depends on another one, and prints the axioms of every
  theorem named in `MANIFEST.json`. No axioms of our own, no `sorry`, no `native_decide`, no `bv_decide`.
  `decide +kernel` is used for concrete runs (examples and counterexamples); it is checked by the kernel and adds no axiom.
* The translation from C++ to Lean, done by hand. Each definition cites the file and lines it models and says where it simplifies.
* Cryptographic primitives are *parameters*: SHA-256, HMAC, SipHash, ristretto255 and the Noise cipher are arbitrary functions.
  Where a property needs that no two inputs collide, or that nobody forges a ciphertext, this is a hypothesis of that theorem,
  limited to the inputs that occur (for instance `NoCollision v G.W.Hashed`: the inputs hashed in this run). Beside each such theorem
  an `example` meets the hypotheses. noise-c is not in `/repo`; what is assumed of it is stated in `Noise.lean` and `Peers.lean`.
  C89 and C90 speak of the group behind the encodings: that libsodium computes in one is the hypothesis `Impl` (and, for completeness,
  `Full`) of `Spec/Group4.lean`. A group of order 7 meets both.

## 2. Conventions

* Bytes are `UInt8`, byte strings are lists; `std::map` is a strictly sorted association list (`OMap`); iteration order is list order.
* Counters whose wrap-around can be reached by a message or a configuration are modelled with wrap-around, and theorems state when
  they do not wrap. Counters that only count events of the enclave itself are natural numbers, and the definition says so.
* Results are `Out α`: `ok`, `abort` (a failed `CHECK`, which ends the process) or `ub` (undefined behaviour). Theorems about
  undefined behaviour therefore have content.
* Metrics, logging and CPU accounting are left out.
* Threads: a function that holds a lock throughout is one step. Where a function takes several locks one after the other
  (`core.cc`, `peers.cc`, `client.cc`), the steps between are separate and interleave in any way with those of other threads.
  Data races inside what a lock protects are not considered.
* Protobuf messages are records. Parsing is the inverse of serializing, except where layout or size matters
  (`RowSize.lean`, `Noise.lean`, `Socket.lean`), for messages between enclaves, client requests, their answers and database rows, where it is proved (`Wire.lean`, `Wire/`, C96 to C99), and where the field semantic
  of proto3 matters (`Config.lean`).
* The network and the host are the adversary: messages are lost, repeated, reordered and delayed. Which messages exist is stated for
  each model: at one replica any message at all (`Raft/Solo.lean`, C27, C30, C31, C33); in a group those sent by replicas that run this
  code (`Raft/Cluster.lean`, `Core/Grid.lean`), because the channel between them is authenticated (C42, C53).

## 3. What is modelled, by property

| Id | Code | Model | Proof |
|---|---|---|---|
| C01-C06, C15-C18 (SVR2) | `db/db2.{h,cc}` | `DB2` | refinement to one vault per account (`Spec/Vault2`), induction on histories |
| C04-C08, C15-C18 (SVR3) | `db/db3.{h,cc}` | `DB3` | same, `Spec/Oprf3` |
| C04-C06, C09-C13, C15-C18 (SVR4) | `db/db4.{h,cc}` | `DB4`, `Session4` | same, `Spec/Vault4`; induction over a session |
| C04-C06, C14-C18 (SVR5) | `db/db5.{h,cc}` | `DB5` | same |
| C19 | `MaxRowSerializedSize`, `proto/e2e.proto:85-122` | `RowSize` | arithmetic of the wire format |
| C20-C22 | `merkle/merkle.{h,cc}` | `Merkle` | heap invariant over all histories, `Spec/Leaves` |
| C23 | `raft/log.{h,cc}` | `Raft/Log` | window invariant |
| C24, C25 | `raft/membership.cc`, quorum size in `raft/raft.cc` | `Raft/Membership` | counting |
| C27, C30-C33, C52 | `raft/raft.{h,cc}`, `raft/internal.h` | `Raft/Node` | every function is a sequence of small steps (`Atom`, `Walk`, `Walk2`), each keeping the invariants |
| C26, C28, C29 | many of these replicas | `Raft/Cluster` | quorum argument with promise indexes over histories |
| C35, C36 | `core/core.cc` (applying entries) | `Core/Apply`, `Core/Grid` | composition with the database refinements, `Spec/Serial` |
| C34 | `core/core.cc:1234-1445` | `Core/Replicate` | invariant relating sender, pushes under way and joiner, for any database that meets `Lawful`; all four do |
| C37 | `core/core.cc:1609-1722, 1785-1928` | `Core/LogTx` | `Spec/Fate` |
| C38 | `core/core.cc:1108-1149, 1182-1232, 1748-1783, 1930-1972` | `Core/E2E` | invariant over interleavings |
| C39 | `core/core.cc:913-1087` | `Core/Regroup` | case analysis |
| C40, C41 | `minimums/minimums.cc`, its use in `core.cc` | `Minimums` | induction |
| C42, C53 | `peers/peers.{h,cc}` | `Peers` | invariant over interleavings of threads, `Spec/Attested` |
| C43 | `timeout/timeout.{h,cc}` | `Timeout` | invariant |
| C44 | `groupclock/groupclock.{h,cc}` | `GroupClock` | order statistics |
| C45 | `noise/noise.cc` | `Noise` | induction on packets |
| C46 | `socketwrap/` | `Socket` | stream invariant |
| C47, C48 | `util/hex.cc`, `util/base64.cc`, `peerid/peerid.cc` | `Codec` | induction |
| C49 | `client/client.{h,cc}`, its use in `core.cc` | `Clients` | invariant over interleavings, `Spec/Sessions` |
| C54 | `attestation/tpm2/` | `Attest/Tpm2` | parser against the bytes of `Spec/Quote` |
| C55, C57 | `attestation/sev/sev.cc` | `Attest/Sev` | induction over the table, `Spec/CertTable` |
| C56, C57, C60 | `attestation/tpm2snp/`, its use in `env/azuresnp`, `env/gcpsnp` | `Attest/Tpm2Snp` | equivalence with `Spec/Snp` |
| C58-C60 | `attestation/nitro/nitro.cc`, its use in `env/nsm/nsm.cc` | `Attest/Nitro` | equivalence with `Spec/Nitro` over decoded CBOR |
| C60-C62 | `env/sgx/sgx.cc:141-207, 276-313`, `attestation/oe/attestation.cc` | `Attest/Sgx` | equivalence with `Spec/Sgx` |
| C63, C64 | the databases on `merkle/` | `OnTree/` | refinement of `Spec/OnTree`, which has no tree |
| C65 | all mutexes: `core/`, `peers/`, `client/`, `timeout/`, `minimums/`, `groupclock/`, `socketwrap/` | `Locks/` | which mutex is taken inside which, for every function; an order of the mutexes that all of them keep |
| C66, C67 | `core/core.cc:216-713, 818-911, 1151-1179, 1350-1423, 1533-1573, 1609-1783, 1825-1972` | `Core/Host*` | which request is kept where; invariant over all events; bookkeeping of responses |
| C68 | `env/socket/socket.cc:98-130`, `env/nsm/nsm.cc:93-115`, `env/sgx/sgx.cc:131-139` | `Env/Random` | loops as recursion over what the source returns |
| C69 | `context/context.cc` | `Env/Ticks` | innermost measurement was touched by the last event |
| C70 | `ecalls/ecalls.cc:29-94` | `Env/Start` | invariant over all interleavings; races are a distinct outcome |
| C71 | `socketmain/socketmain.cc:79-206` | `Env/Serve` | permutation of read, answered and in progress |
| C72 | `raft/log.cc`, `raft/raft.cc` | `Raft/Room` | bytes lost never shrink along a group's steps; concrete group |
| C73 | `db/db2.cc`–`db5.cc`, `util/bytes.cc` | `Wipe`, `WipeRuns` | memory of row objects refines the database models along every event |
| C74 | `raft/raft.cc` | `Raft/Among`, `Raft/Elect`, `Raft/Elect2`, `Raft/Sync`–`Raft/Sync6` | invariant of all futures among the replicas left; witness by execution; construction of an election and of the replication after it from every state |
| C75 | `raft/raft.cc` | `Raft/Terms` | invariant over replicas, messages, databases and what was seen before |
| C76 | `raft/raft.cc` | `Raft/Terms`, `Raft/Moved`, `Raft/Complete` | witness by execution; corollary of C28; invariant over the tree of all histories of all terms (`Tree`) |
| C77 | `env/azuresnp`, `env/gcpsnp`, `env/nsm`, `env/sgx`, `env/socket`, `fs/fs.cc` | `Attest/Make` | composition with C56, C59 and C61; witness for Nitro |
| C78 | `core.cc` (requests, transactions), `raft.cc` (`LogRequest`, `TakeCommittedLog`) | `Raft/Request`, `Core/Told`, `Core/Grid` | the tree of logs of C76 with C36 and C37 |
| C79 | `core.cc` (requests, transactions, membership), `raft.cc` | `Raft/Crown`, `Core/Told`, `Core/Members`, `Core/Regroup` | what leaders had: those of one term that could have made the same entry were elected by the same voters |
| C80 | `queue.h` | `Queue` | threads with program counters; sleeping threads that could go on are covered by pending notifications |
| C81 | `socketwrap/socket.cc` (condition variables) | `Wake` | the same for `WriteQueue`, with a measure of what the threads can still do |
| C82 | `db3.cc`, `db4.cc`, `db5.cc` under `core.cc` and `raft.cc` | `Props.Family` | C36, C78 and C79 for any database that simulates a per-account specification (`Sim`), then a quantity that every counted answer decreases |
| C83 | `db2.cc`, `db3.cc`, `db4.cc`, with failing `merkle::Leaf::Verify`, under `raft.cc` | `Props.Tamper` | a quantity each replica decreases at every counted answer, whatever its checks say; one list of entries from C28/C29 |
| C84 | `db2.cc`, `db3.cc` | `DB2View`, `Props.Secret` | two runs of a game with an adaptive plan, related step by step; what is compared and counted is read off what was seen |
| C85 | `db4.cc` with its client sessions | `Props.Shares` | one entry and one request commute with removing shares and deltas; the game of C84; marks on the account and on sessions, read off what was seen |
| C86 | `util/log.h`, `util/log.cc`, `util/macros.h`, `core.cc:320-327` | `Env/Log` | induction on requests; witnesses |
| C87 | `socketmain/socketmain.cc:211-236` | `Env/Main` | `atoi` is exactly the numbers; induction on arguments |
| C88 | `db2.cc`-`db5.cc` | `DB2`-`DB5` | entries are local to their account: a history without the account's entries is simulated |
| C89 | `db4.cc`, `ristretto.cc` | `DB4`, `Spec/Group4` | pending versions are apart from current ones (invariant of replicas); then linear algebra |
| C90 | `db4.cc` Restore2 | `Session4`, `Spec/Group4` | the accepted equation, read in the group |
| C91 | `db4.cc` | `DB4`, `Session4`, `Spec/Group4` | two runs in step, accounts equal but for their keys; in a group the zero share makes up for a change of the key share |
| C92 | `db5.cc` | `DB5` | two runs in step, equal but for the hidden data; downloads change nothing |
| C93 | `peers.cc` | `Peers` | invariant over the trace of Noise calls: a handshake kept is one never answered, keys kept are keys of handshakes answered |
| C94 | `core.cc`, `raft.cc` | `Core/Status`, `Raft/Named` | invariant: whoever a follower names sent it an append request of its term, and only those who became leader of a term send such requests |
| C95 | `fs.cc` | `Env/TmpDir` | induction on trees, for the loop over what `fts_read` returns, in any surrounding file system |
| C96 | `proto/raft.proto` | `Wire` | digits, then fields, then messages, each read back in any surrounding; what is parsed by induction on fields |
| C97 | `core.cc`, `clientlog.proto`, `client*.proto`, `e2e.proto` | `Wire.Client` | one law for the four requests, by which a parsed request is serialized with its unknown fields and parsed again |
| C98 | `client.cc`, `core.cc`, `client*.proto` | `Wire.Reply` | C78 and C82 with the wire formats put in; the tries left stay below 2^32 along any list of requests, so that they survive a `uint32` |
| C99 | `peers.cc`, `e2e.proto` | `Wire.E2E`, `Peers` | round trip by folding over the fields, for maps with any order of entries; then C53 with this format put in; `C99_nothing_made_up` allows empty data as well |
| C100 | `peers.cc` | `Peers`, `Wire.E2E` | the calls of both sides one after the other; what Noise must do is one assumption (`Shakes`); a counterexample for requests that cross |
| C101 | `core.cc`, `raft.cc`, `e2e.proto` | `Core.Replicate`, `Raft.Node`, `Wire.E2E` | sums of the sizes of fields; the loops take entries until the size is reached, so all but the last are below it; in a run (C34) every push under way was sent from a state the member was in |
| C102 | `env.cc`, `noisewrap/wrap.cc`, `sip/hasher.cc`, callers in `merkle.cc`, `core.cc`, `ecalls.cc`, `fs.cc` | `Env/RandomUse` | from C68, by the result of `RandomBytes` |
| C103 | `raft.cc` (`RelinquishLeadership`, `TryToRelinquishLeadership`) | `Raft/Node`, `Raft/Hand` | which functions send `timeout_now`; an invariant of the leader's table over all calls |
| C104 | `core.cc` (`HandleRelinquishLeadership`), `raft.cc` | `Core/Relinquish`, `Core/Apply`, `Raft/Node` | the term of the awaited entry, the history tree of C76; schedules of three replicas |
| C105 | `core.cc` (`HandleHostDatabaseRequest`), `db2.cc`–`db5.cc` | `Core/Apply`, `DB2`–`DB5` | the verdict on the waiting handler (C37), and what one entry does to the database |
| C106 | `core.cc` (`SendNextReplicationState`), `MaxRowSerializedSize` of `db2.cc`–`db5.cc` | `Core/Replicate`, `RowSize` | least size of a push against the room for a row; induction on what is left to send; a chunk smaller than a row would make no progress (`C106_without_room_stuck`), and a member that applies a chunk of entries between pushes never sends rows (`C106_busy_member_sends_no_rows`) |
| C107 | `core.cc` (`HandleRaftWrite`, `RaftWriteLogTransaction`), `raft.cc` (`LogRequest`) | `Core/Write`, `Raft/Node`, `Wire` | what `LogRequest` does (`logRequest_spec`), and the round trip of entries (C96) |
| C108 | `core.cc` (`HandleRequestRaftMembership`, `HandleRequestRaftVoting`, `HandlePeerRequestedRaftRemoval`) | `Core/GroupRequest`, `Core/Members` | what the new membership reads as, place by place |
| C50 | configuration checks of `core.cc` | `Config` | case analysis |
| C51 | `core/core.cc:443-713, 1447-1573` | `Core/Members` | counterexample; agreement while nobody joins again |

How the layers fit together: `Raft/Node` takes what the integrity tree answers for its two leaves as a parameter (`path`), and each
database takes the answer for each row's leaf; that an untampered tree answers yes for every leaf, exactly for the value of its
last update, is C20, and that it answers no for a row that was changed is C21. `OnTree/` puts the databases on that tree together with
other users of it: there the answers come from the tree (C63), also after memory was written over (C64). `Core/Grid` puts a database on top of each replica of
`Raft/Cluster`; a replica there joins by taking over a member's state, and `C34_joins_partial` shows that the messages of
`Core/Replicate` amount to that. `Core/Members` takes the same step out of the join requests. `Locks/` keeps of each function only what it locks, calls and stores to be
called later, and every branch may be taken; so it has more runs than the code, and none that the code has is missing. Two things are
left out: the mutexes inside of libraries and logging, and the wait for a condition in the writing thread, which gives its mutex back.

## 4. Not modelled

The libraries below attestation: X.509 chains, RSA and ECDSA verification, the JSON and protobuf parsers are parameters (`Attest/Lib`,
`Tpm2Snp.Formats`); so are the CBOR decoder (bytes to items, `Nitro.World`; the encoder of the signed structure is modelled, with shortest
headers) and OpenEnclave's verifier (evidence to claims, `Sgx.World`); the submodule that defines `attestation_report` is not in `/repo`, the layout in AMD's specification is used. In `Peers` an attestation still is an
outcome of the verifier, with a key, a time and values. Of how evidence is made: the temporary directory and its removal, failures of protobuf. The rest of `env/`, setting up sockets, `hmac/`, `sha/`, `ristretto/` wrappers, the Go host, the build, allocation failure, constant-time behaviour,
metrics and logs. Of wiping (C73) only row objects are modelled: the protobufs, the `scratch` arrays of `HashRow` and other plain locals, which
hold the same secrets and are wiped nowhere, are not. Data races on fields that a lock is meant to protect.

## 5. Findings

Each is a theorem with a concrete run; the property is then kept at full strength in `properties.jsonl`, and what does hold is the
`_partial` theorem.

Agreement
* **C29** (`RaftGroup.C29_false_without_super_majority`). With `super_majority = 0`, the value in `host/enclave.config.sample`, two
  replicas can commit different entries while the voters are changed: a leader starts a change before it has committed an entry of its
  own term. With `super_majority >= 1` agreement is proved.
* **C51** (`Rejoin.C26_/C28_/C36_false_with_rejoin`). `HandleJoinRaft` refuses only a replica that already is part of the group as far
  as it knows. A voter that is behind can be told to join again; it forgets its vote and its promises. Two leaders in one term,
  conflicting commits, and more PIN guesses than allowed follow.
* **C34** (`Replicate.C34_truncated`, `Replicate.C34_reordered`). A sender whose log was truncated past the next entry to send takes that
  for the end of the log and sends rows that have the effect of entries the joiner will apply again. A refused push still advances the
  sequence number that is expected, so that a later one can be accepted; if its response is handled first the joiner is promoted
  with rows missing.
* **C30, C31** (`RaftNode.C30_term_wraps`, `RaftNode.C31_vote_twice_after_wrap`, `RaftNode.C30_commit_above_promise`). Terms are 64-bit
  and a message can carry any term: after a wrap a replica votes twice in a term.

Aborts and undefined behaviour
* **C05, C13, C16** (`DB4.C05_db4_short_id_ub`, `DB4.C13_truncated_target_version`). SVR4 rows that no replica emits: a short id is read past its
  end; a `new_version` that is a multiple of 2^32 is stored as 0. A rotation to version 0 is not part of the hash.
* **C06** (`DB2Rows.C06_db2_size_field_ub`). The size field of a tampered SVR2 row is used to copy before the row is verified.
* **C33** (`RaftMessages.C33_ack_beyond_log_aborts`, `C33_two_lying_acks_abort`, `C33_own_id_aborts`, `C33_reset_of_own_id`). A member can make a leader abort.
* **C41** (`Minimums.C41_every_replica_aborts`). Two minimums updates in flight make every replica abort.
* **C42** (`Peers.C42_malformed_id`, `Peers.C42_clock_overflow`). A malformed peer id from the host aborts; a clock near 2^63 overflows.
* **C55** (`Sev.C55_end_wraps_around`). The end of a certificate in the hypervisor's table is computed in 32 bits: offset 1 and length
  2^32 - 1 make the guest copy 4 GiB from outside of the buffer.
* **C60** (`Tpm2Snp.C60_rsa_platform_certificate`, `C60_keys_that_are_no_objects`). A certificate for an RSA key that chains to AMD (its
  intermediate one does) passed as the platform's dereferences a null `EC_KEY`; JSON that is not an object fails rapidjson's assertion.
  On Nitro (`Nitro.C60_huge_length`) a string is resized to the length that a CBOR header names before the data is looked at: ten
  bytes of evidence throw an exception that nothing catches. On SGX (`Sgx.C60_no_custom_claims`, `Sgx.C60_tcb_info_not_an_object`,
  `Sgx.C60_time_without_date`) the first custom claim is read without a check that there is one.
* **C65** (`Locks.C65_deadlock_in_replication`). `SendE2ETransaction` runs the callback on the spot if the message cannot be sent.
  The callback of a push of replicated state (core.cc:1330-1347) then runs with `raft_.mu` held. It looks at `sent_response` twice;
  if another thread (a reset of the peer, a timeout of an earlier push) sets it in between, the callback goes on as if the push had been
  answered and locks `raft_.mu` again. Apart from this all mutexes are taken in one order.
* **C66** (`Host.C66_second_join_null`, `C66_second_join_incomplete`, `C66_join_while_sending_null`). The callback of the transaction for
  replication (core.cc:627-646) does not look whether the replica still loads from that peer. If the host asks to join again in the
  meantime, a late response of the first peer follows null pointers, or makes a member out of a replica whose database the second peer has
  not sent. A replica that was sending its state when it was removed and told to join follows a null pointer at the next response.
* **C68** (`Random.C68_simulated_nsm_false`, `C68_simulated_nsm_overflow_false`). The loop for simulated Nitro enclaves does not advance its
  pointer, so that after a short result the end of the buffer stays as it was; and it takes a failed call for 2^64 - 1 bytes, asks for
  one more than there is room for, and lets the next call write past the end. The loops for real enclaves are right.
* **C71** (`Serve.C71_accept_interrupted_false`). `AcceptSocket` means to go on after an interrupted `accept4`, but then reads from
  descriptor -1 and gives up.
* **C48** (`Codec.C48_non_ascii_ub`). Decoding base64 with a byte of 0x80 or more reads outside the table.
* **C49** (`Clients.C49_guessed_id_ub`). Closing the next client id while `HandleNewClient` runs is a use after free.
* **C50** (`Config.C50_huge_election_ticks_wrap`). `election_ticks` above 2^31 wraps; 0, which the check excludes, would divide by zero.

Integrity and freshness
* **C06** (`DB4.C06_db4_create_accepts_tampered_counter`). SVR4 Create with `max_tries = 0` keeps the counter of a row it does not verify, and
  thereby makes a tampered counter valid.
* **C57** (`Tpm2Snp.C57_lax_guests_are_accepted`). On Azure and GCP nothing calls `ValidateReport`: the policy (debugging, migration), the
  version and the signature algorithm of an SNP report are never looked at.
* **C62** (`Sgx.C62_debugged_enclave_accepted`, `Sgx.C62_other_claims_are_not_read`). On SGX the claim with the enclave's attributes is never
  looked at, and MRENCLAVE does not cover them; whether an enclave in debug mode is refused is left to OpenEnclave.
* **C58** (`Nitro.C58_header_is_not_checked`). `CoseSign1::Valid` returns an error code where a `bool` is expected, so that a header that does
  not begin with two integers is valid. No harm follows: C59 shows that `Verify` looks again.
* **C61** (`Sgx.C61_negative_number_is_huge`). A negative TCB evaluation data number would pass every minimum.
* **C11** (`DB4.C11_version_zero_empty_share`). Restore2 for version 0 answers OK with an empty share.
* **C45, C53** (`Noise.C45_empty_accepted`, `Noise.C45_cut_accepted_without_ad`, `PeerSession.C53_empty_changes_key`). Empty ciphertext
  decrypts to an empty message without any check, and counts towards the change of key; client messages, which have no associated
  data, can be cut at a packet boundary.
* **C42** (`Peers.C42_stale_until_the_clock_moves`, `Peers.C42_low_until_checked`). A shortened attestation timeout is enforced only when the
  group clock next moves.
* **C49** (`Clients.C49_rotation_undone`, `Clients.C49_stale_evidence`). A refresh of the attestation that overlaps a rotation of the client
  key brings the old key back; a slow refresh overwrites newer evidence.
* **C73** (`Wipe.C73_false_svr3`, `C73_false_svr2_memset`, `C73_false_svr2_load`, `C73_false_svr2_drop`). SVR3 never wipes a row: a removed
  or used up private key stays in freed memory. SVR2 wipes with `memset` directly before freeing, which a compiler may drop (SVR4 and SVR5
  use `MemZeroS`), and wipes neither the local copy of a received row nor the rows of a database that is destroyed.
* **C74** (`Progress.C74_false_stuck`). `MaybeAdvanceCommitIndex` promises an entry stored on a quorum whatever its term; the TLA+ text in the
  comment beside it demands an entry of the current term. A follower that promised an entry of an old term drops every vote request whose
  last entry, at an index it promised, has a higher term (`CheckLogHash`), while the candidate with the
  higher last term refuses the follower. If the leader then crashes, the two others of a group of three are up and connected and no leader is
  ever elected; what they committed cannot be read any more. `C74_stuck_forever` gives the condition in general, and
  `Elected.C74_electable_partial` shows that it is exact: without refusals an election can be brought about from every state.
  `Commits.C74_commits_partial` carries on from there: the exchange of append requests, rejections and answers ends with the whole log of the
  leader committed, provided the quorum promised only entries it has, no membership change is under way, and logs have room. It also assumes
  that `HMAC` gives 32 bytes, which `Log::Append` checks.
* **C76** (`Matching.C76_false_leader_lacks`). The cause is that of C74: an entry of an earlier term is promised, committed and applied once it is on
  a quorum. A rival whose log is longer, with a last entry of a term between, is then elected with the votes of replicas that promised the
  entry, because `CheckLogHash` accepts an index beyond the voter's log. The usual argument for Raft (leader completeness) therefore fails for this
  code. Agreement is kept by promises (C28): the new leader's entries are dropped by those who promised, and it never commits.
  When the last committed entry is of the term of the leader that commits it, the usual argument does go through
  (`Complete.C76_leader_completeness_partial`): waiting for the empty entry of a new leader to be on a quorum before committing would give the whole
  property. The proof keeps the set of all histories that ended in an entry of each term, and of what each replica acknowledged in each term.
* **C77** (`Evidence.C77_nitro_start_checks_nothing`). `Init` on Azure and GCP attests its own evidence and, unless the host has asked
  for a negative log level (see C86), stops the enclave if that fails. On Nitro it
  only takes the registers from its own document: an enclave whose evidence nobody accepts starts, and is found out by its peers. Smaller things
  seen on the way: `FileContents` and `SnpReport` take the descriptor 0 for an error; `Init` on GCP reads a nonce that it has not initialised,
  which is undefined behaviour though any value would do; the temporary directory's traversal is not closed (`fts_close`), so that each piece of
  evidence leaks its memory.
* **C80**. `Queue` (`queue.h:17`) never initialises `popped_`: every `Pop` that takes out an element and every `Flush` of a queue
  without static storage reads an indeterminate value. The class is included by `socketmain.cc` and `env/socket/socket.cc` but not
  instantiated outside of its tests.
* **C81**. `WriteQueue::KillThread` stores `done_` and notifies without holding `mu_`, so that its notification can be lost. Only
  tests call it. Nothing else in `WriteQueue` loses a notification.
* **C79**. That a term has one leader (C26) is proved for fixed voters only. While voters change the proof uses something weaker: leaders of
  one term that could have made the same entry were elected by the same voters. The order of answers is shown to respect time
  if no replica joins with a log in which it is already a voter; `C79_as_core_does` shows that `core.cc` never lets this happen
  unless a replica joins again (C51).
* **C83**. A request whose integrity check fails is refused, and nothing is stored (db2.cc, Restore; db3.cc, Evaluate; db4.cc, Restore1). The entry
  has been applied all the same, so the replica's database differs from the others' from then on, and nothing notices. Each replica then counts
  guesses apart: someone who can make checks fail at chosen replicas and requests gets up to m(n - 1) wrong guesses answered by m replicas
  instead of n - 1. `C83_false_one_limit` is a run with m = 2 and n = 2; the bound for each replica is proved.
* **C86** (`Fatal.C86_fatal_false`, `Evidence.C77_started_false`, `Serve.C71_served_false`). `LOG(x)` is an `if` on the level that is written, and
  what stops the enclave at a `LOG(FATAL)` is the destructor of the object inside it. The level is the host's choice. `kSetLogLevel` refuses levels
  from 7 on, but accepts `LOG_LEVEL_NONE` and negative ones (proto3 enumerations hold any integer), and the init message's level is only compared with
  `LOG_LEVEL_NONE`. Below 1, `LOG(FATAL)` does nothing and the code after it is run. With an init message of level -1, `Init` on Azure and GCP goes
  on after failed commands and with evidence that the machine itself does not accept, and the server threads of `RunServer`, whose call is an operand of
  `LOG(FATAL)`, end without reading a message. After `SIGSEGV` the handler returns to the instruction that faulted. `CHECK` calls `abort()` itself
  and stops the enclave at every level; Nitro and SGX use it throughout.
* **C87** (`Fatal.C87_atoi_false`). A number of the argument `--port=` beyond the range of `int` is undefined behaviour of `atoi`. Text after the
  number is ignored.
* **C92**. SVR5 counts no tries: someone who may name an account can have any number of passwords evaluated under its data. Whatever limits guesses is
  outside of the enclave (unlike SVR2, SVR3 and SVR4).
* **C93**. Nothing keeps an enclave from connecting to its own key. If the host hands it its own request, it answers and counts itself among its
  connected peers until the next message from that key. It cannot read what it sends itself, because answering removes the handshake begun.
* **C94**. The report lists the peers of the peer manager, not the members: a member, even the leader, that the peer manager does not know is left
  out (`C94_leader_left_out`). No leader is encoded as an id of zeros, and nothing keeps a peer from having that id, so that it is then marked as
  the leader (`C94_zero_peer`); `PeerID::Valid` exists but is never called. The check in `FollowerReplicationStatus` would fail if a follower took itself for the leader; that it does not
  rests on C93.
* **C95**. Symbolic links in a temporary directory are not removed, and so neither is the directory (`C95_links_stay`); the commands the enclave runs
  make none. The handle of `fts_open` is never closed (enclave/fs/fs.cc:60-84), so each attestation on GCP and Azure loses some memory; this is not
  part of the model.
* **C97** (`Requests.C97_host_unchecked`). `HandleHostDatabaseRequest` does not call `ValidateClientLog`. A request that does not validate,
  such as a restore with an empty pin, is logged; members skip the entry, and a replica that joins while the entry is in the log fails with
  an error if the rows it has been sent reach past the entry's id. (`Requests.C97_padding`) Unknown fields of a request are logged too, so a
  valid request's entry is as large as the client's message.
* **C98** (`Replies.C98_length_shows_sealed`). Answers are not padded, so that the host, which sees the ciphertexts, learns from their lengths
  whether the PIN of an SVR2 restore was right (a stored secret has at least 16 bytes). No comment in the code claims otherwise.
* **C100** (`Handshake.C100_crossing`). If two enclaves connect to each other at the same time, each accepts the request of the other, which
  replaces its own, and then gets an answer it no longer expects, for which it drops the connection and sends a reset
  (`enclave/peers/peers.cc:107-112`). Both end disconnected though everything was delivered and good. Nothing breaks the tie; another attempt may cross again.
* **C99** (`PeerWire.C99_empty`). No bytes are a valid message with nothing set, so the hypothesis of `C53_empty_injected` holds of the real format.
* **C101** (`PushWire.C101_over_chunk`). A push may be larger than `replication_chunk_bytes`: one entry goes over it, rows are counted with
  `MaxRowSerializedSize` (C19) and without the tag and length each has in a list, and membership and limits are added after the size was measured
  (`enclave/core/core.cc:1288-1317`). With the bound of C101 this does no harm unless the configured size is close to two gigabytes.
* **C102** (`RandomUse.C102_unchecked_false`). The error of `RandomBytes` is ignored for the Merkle tree's SipHash key (`enclave/merkle/merkle.cc:24`), a replication id
  (`enclave/core/core.cc:616`) and the seed of `rand` (`enclave/ecalls/ecalls.cc:26`): they are then what was on the stack. On SEV-SNP one failed `rdrand` suffices.
* **C103** (`Hand.C103_successor_may_be_gone`). `RelinquishLeadership` appends an empty entry so that the successor is one that is up "at the time of this call"
  (`enclave/raft/raft.cc:182-187`), but ignores whether it could be appended. With no room in the log it hands over at once, to a replica that may have been gone for
  long, and is a follower itself.
* **C104** (`Relinquish.C104_still_leads`, `Relinquish.C104_error_though_handed_over`). `HandleRelinquishLeadership` waits for the entry after its last one to have the
  next term (`enclave/core/core.cc:826-831`). If the `timeout_now` message is lost and the same replica wins the next term, its host is told of success though that
  replica leads. If the successor is elected only in the term after, the host is told of an error though leadership was handed over.
* **C105** (`HostDelete.C105_refused_reported_as_success`, `HostDelete.C105_success_without_effect`). `HandleHostDatabaseRequest` does not call `ValidateClientLog` and ignores the
  effect (`enclave/core/core.cc:772-798`). A request that the database refuses is reported to the host as a success and changes nothing. Deletions are not affected.
* **C107** (`Write.C107_own_without_time`). A leader refuses writes that other members forward as long as it does not know the time of a quorum of voters
  (`enclave/core/core.cc:1513-1515`), but takes those of its own clients (`enclave/core/core.cc:1683-1694` has no such check). Also, what a member forwards may be any
  kind of entry, such as a change of the membership (`Write.C107_member_may_change_membership`); the rules for memberships still apply.
* **C108** (`GroupRequest.C108_removal_without_time`). A replica may join or vote only when the leader knows the time of a quorum of voters; its request to be removed is
  taken without (`enclave/core/core.cc:1533-1539`).
* **C52**. The leaves hold eight bytes of an entry's hash; term, vote and role have none.

Sizes and liveness
* **C19** (`RowSize.C19_db2_exceeds`, `C19_db3_exceeds`, `C19_db4_exceeds`). `MaxRowSerializedSize` is too small for SVR2, SVR3 and SVR4.
* **C23** (`RaftLog.C23_cancel_leaks_bytes`). Cancelled log entries stay counted, so that the log is truncated earlier than configured.
* **C72** (`Room.C72_false_wedged`, `Room.C72_wedged_forever`). As a consequence a leader that filled its log while nobody heard of it, and
  was replaced, keeps a nearly empty log that counts as full: it can never append anything again, not even as a leader, in any
  continuation. Only restarting the replica helps.
* **C37** (`LogTx.C37_late_is_never_answered`). A forwarded write that is registered after its entry was applied is never answered.
* **C67** (`Host.C67_join_answered_twice`, `C67_join_never_answered`, `C67_second_join_forgets_first`). A request to join may be answered
  twice, never, or be forgotten for another one. All other requests are answered once.
* **C39** (`Regroup.C39_false_small_minimum`, `C39_requested_voters_exceed_maximum`). With `min_voting_replicas <= super_majority` the leader
  proposes at every tick a demotion that the membership rule refuses; voters added on request are not limited by the maximum.

Noticed while reading, not stated as theorems: a failed replication leaves the state at loading, though the comment says that it goes
back to no state; `HandleJoinRaft` ignores the error of `ConnectToPeer`; a push with a membership that does not parse leaves
`raft_.loading.mem` null;
`RaftRequestMembership`'s callback uses the response without checking its kind; `gcpsnp` quotes with an uninitialised nonce at start-up; a Nitro document's register numbers are cut to 32
bits, so that 2^32 stands for 0, and later ones overwrite earlier; `FinishConnection` pads short public keys with zeros; a connection
request that a host injects drops the existing session; the callback of a transaction that cannot be sent runs inline;
`Reconfigure` starts from the defaults and not from the current configuration; the quorum of no voters is 0, so that a leader's
`stored[membership_quorum_size()-1]` relies on there being a voter; the peer manager does not refuse a peer with its own id; a single voter among more replicas makes the constructor of
`Raft` abort; the id that a client is authenticated with is whatever the host says; `queue::Queue::popped_`, which only tests use, is not
initialised.
