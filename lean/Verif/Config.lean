import Verif.Bytes

/-!
# Model of the configuration checks of `enclave/core/core.cc`

All fields are `uint32` except `logMaxBytes` (`uint64`); `shared/proto/enclaveconfig.proto`. Fields that no check
reads (`batch_messages_if_backlog_reaches`, `send_timestamp_ticks`, `client_pq`, `simulated`) are left out.
-/

namespace Svr.Config

structure Cfg where
  electionTicks : Nat
  heartbeatTicks : Nat
  replicationChunkBytes : Nat
  replicaVotingTimeoutTicks : Nat
  replicaMembershipTimeoutTicks : Nat
  logMaxBytes : Nat
  replicationPipeline : Nat
  e2eTxnTimeoutTicks : Nat
deriving DecidableEq

/-- Values that fit the fields. -/
structure Cfg.Fits (c : Cfg) : Prop where
  electionTicks : c.electionTicks < 2 ^ 32
  heartbeatTicks : c.heartbeatTicks < 2 ^ 32
  replicationChunkBytes : c.replicationChunkBytes < 2 ^ 32
  replicaVotingTimeoutTicks : c.replicaVotingTimeoutTicks < 2 ^ 32
  replicaMembershipTimeoutTicks : c.replicaMembershipTimeoutTicks < 2 ^ 32
  logMaxBytes : c.logMaxBytes < 2 ^ 64
  replicationPipeline : c.replicationPipeline < 2 ^ 32
  e2eTxnTimeoutTicks : c.e2eTxnTimeoutTicks < 2 ^ 32

structure GroupCfg where
  minVoting : Nat
  maxVoting : Nat
  superMajority : Nat
  dbVersion : Nat
  attestationTimeout : Nat
deriving DecidableEq

/-- `DefaultEnclaveConfig` (enclave/core/core.cc:62-74). -/
def defaultCfg : Cfg :=
  { e2eTxnTimeoutTicks := 60, electionTicks := 32, heartbeatTicks := 15, replicationChunkBytes := 2 ^ 20,
    replicaVotingTimeoutTicks := 60, replicaMembershipTimeoutTicks := 300, logMaxBytes := 2 ^ 30,
    replicationPipeline := 4 }

/-- One scalar of protobuf's `MergeFrom`: proto3 scalars without presence are copied when they are not zero. -/
def mergeField (base upd : Nat) : Nat := if upd ≠ 0 then upd else base

/-- `MergeFrom` on `EnclaveConfig`. -/
def merge (b u : Cfg) : Cfg :=
  { electionTicks := mergeField b.electionTicks u.electionTicks
    heartbeatTicks := mergeField b.heartbeatTicks u.heartbeatTicks
    replicationChunkBytes := mergeField b.replicationChunkBytes u.replicationChunkBytes
    replicaVotingTimeoutTicks := mergeField b.replicaVotingTimeoutTicks u.replicaVotingTimeoutTicks
    replicaMembershipTimeoutTicks := mergeField b.replicaMembershipTimeoutTicks u.replicaMembershipTimeoutTicks
    logMaxBytes := mergeField b.logMaxBytes u.logMaxBytes
    replicationPipeline := mergeField b.replicationPipeline u.replicationPipeline
    e2eTxnTimeoutTicks := mergeField b.e2eTxnTimeoutTicks u.e2eTxnTimeoutTicks }

inductive Err
  | electionTicks | heartbeatVsElection | replicationChunk | replicaTimeout | logMaxBytes | pipeline | e2eTimeout
  | minGtMax | minTooSmall | attestationTimeout | dbVersion
deriving DecidableEq

/-- `Core::ValidateConfig` (enclave/core/core.cc:163-174); `none` is `error::OK`. -/
def validateConfig (c : Cfg) : Option Err :=
  if c.electionTicks = 0 then some .electionTicks
  else if c.heartbeatTicks ≥ c.electionTicks then some .heartbeatVsElection
  else if c.replicationChunkBytes < 1024 then some .replicationChunk
  else if c.replicaVotingTimeoutTicks ≤ c.electionTicks then some .replicaTimeout
  else if c.replicaMembershipTimeoutTicks ≤ c.replicaVotingTimeoutTicks then some .replicaTimeout
  else if c.logMaxBytes < 1024 then some .logMaxBytes
  else if c.replicationPipeline ≤ 0 ∨ c.replicationPipeline ≥ 2 ^ 32 - 1 then some .pipeline
  else if c.e2eTxnTimeoutTicks < 1 then some .e2eTimeout
  else none

/-- `db::DB::P` (enclave/db/db.cc:16-29): versions that have a protocol. -/
def dbKnown (v : Nat) : Bool := v == 2 || v == 3 || v == 4 || v == 5

/-- `ValidateRaftGroupConfig` (enclave/core/core.cc:52-60). -/
def validateGroup (c : GroupCfg) : Option Err :=
  if c.minVoting > c.maxVoting then some .minGtMax
  else if c.minVoting < 1 then some .minTooSmall
  else if c.attestationTimeout < 1 then some .attestationTimeout
  else if dbKnown c.dbVersion = false then some .dbVersion
  else none

/-- The configuration part of `Core::Create` (enclave/core/core.cc:107-131). -/
def create (provided : Cfg) (g : GroupCfg) : Except Err (Cfg × GroupCfg) :=
  let c := merge defaultCfg provided
  match validateConfig c with
  | some e => .error e
  | none =>
    match validateGroup g with
    | some e => .error e
    | none => .ok (c, g)

/-- `Core::HandleReconfigure`, `ValidateConfigChange` (enclave/core/core.cc:176-179, 800-816): the new configuration
starts from the defaults again, not from the current one. -/
def reconfigure (cur req : Cfg) : Cfg × Option Err :=
  let c := merge defaultCfg req
  match validateConfig c with
  | some e => (cur, some e)
  | none => (c, none)

/-- `Raft::RandomElectionTimeout` (enclave/raft/raft.cc:1368-1370): `uint32` addition and remainder; a zero divisor is
undefined. `r` is the value of `rand()`, `0 ≤ r ≤ RAND_MAX = 2^31 - 1`. -/
def randomElectionTimeout (electionTicks r : Nat) : Out Nat :=
  if electionTicks = 0 then .ub else .ok ((electionTicks + r % electionTicks) % 2 ^ 32)

end Svr.Config
