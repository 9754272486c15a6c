import Verif.OMap
import Verif.Config
import Verif.Raft.Log
import Verif.Raft.Membership

/-!
# Model of one Raft replica: `enclave/raft/raft.cc`, `enclave/raft/raft.h`, `enclave/raft/internal.h`

Peer identifiers are any linearly ordered type `P`. Arithmetic on terms and on `uint64` values that come from messages
wraps around (`wadd`, `wsub`); the index of the newest log entry is assumed not to reach 2^64. Logging and metrics are left
out. `context::Context` (an arena) is left out: messages are values.
-/

namespace Svr.Raft

/-- `uint64` addition and subtraction. -/
def wadd (a b : Nat) : Nat := (a + b) % SZ
def wsub (a b : Nat) : Nat := if b ≤ a then (a - b) % SZ else (SZ - (b - a) % SZ) % SZ

/-- What the replica gets from its surroundings. -/
structure Env (P : Type) where
  /-- `hmac::HmacSha256` -/
  hmac : Bytes → Bytes → Bytes
  /-- `ReplicaGroup::SerializeAsString` -/
  ser : List (Bytes × Bool) → Bytes
  /-- `PeerID::FromString` -/
  pid : Bytes → Option P
  z : Sizes
  /-- the values `rand()` returns, in order -/
  rand : Nat → Nat
  /-- whether the walk from the leaf to the Merkle root finds the hashes it expects, per call: `true` as long as the
  tree has not been tampered with -/
  path : Nat → Bool

/-- `internal::ReplicationState` (enclave/raft/internal.h:22-61). -/
structure Repl where
  next : Nat
  mtch : Nat := 0
  promise : Nat := 0
  inflight : Option Nat := none
  probe : Bool := false
  hb : Bool := false
  upd : Bool := false
  lastSeen : Int := 0
deriving DecidableEq

/-- `internal::Role` (enclave/raft/internal.h:63-67). -/
inductive Role
  | follower | candidate | leader
deriving DecidableEq

/-- `RaftMessage` and what it contains (enclave/proto/raft.proto). -/
inductive Body
  | voteReq (lastIdx lastTerm : Nat) (lastHash : Bytes)
  | voteResp (granted : Bool)
  | appReq (prevIdx prevTerm : Nat) (prevHash : Bytes) (entries : List Entry) (commit promise : Nat)
  | appResp (success : Bool) (mtch last promise : Nat) (hash : Bytes)
  | timeoutNow
  | notSet
deriving DecidableEq

structure Msg where
  group : Nat
  term : Nat
  body : Body
deriving DecidableEq

/-- The fields of `RaftConfig` the replica reads. -/
structure RaftCfg where
  electionTicks : Nat
  heartbeatTicks : Nat
  chunkBytes : Nat
  batchBacklog : Nat
deriving DecidableEq

/-- `Raft` (enclave/raft/raft.h:241-289). `rng` and `walks` count the calls of `rand()` and of Merkle walks.

The last four fields are not in the code and nothing reads them; they record what the replica did, for use in
statements: the inputs it gave to HMAC, the votes it cast (term and candidate), the terms in which it became leader
(with the membership that elected it), and the memberships under which it, as leader, advanced its commit index. -/
structure Node (P : Type) [LinearOrder P] where
  group : Nat
  me : P
  mem : Membership P
  uncommitted : List (Nat × Membership P)
  cfg : RaftCfg
  lastApplied : Nat
  term : Nat
  votedFor : Option P
  role : Role
  fLeader : Option P
  fElection : Int
  votes : List P
  cElection : Int
  followers : OMap P Repl
  heartbeat : Int
  relinquishing : Bool
  log : Log
  commitLeaf : Bytes
  commit : Nat
  promiseLeaf : Bytes
  promise : Nat
  sendable : List (Option P × Msg)
  superMajority : Nat
  rng : Nat
  walks : Nat
  hashed : List (Bytes × Bytes)
  cast : List (Nat × P)
  led : List (Nat × Membership P)
  cfgs : List (Membership P)

inductive RErr
  | log (e : LogErr) | membership (e : MemErr) | notLeader | membershipAlreadyChanging
deriving DecidableEq

/-- `LogLocation` (enclave/proto/raft.proto). -/
structure Loc where
  term : Nat
  idx : Nat
  hash : Bytes
deriving DecidableEq

namespace Node
variable {P : Type} [LinearOrder P]

/-- `Raft::membership` (enclave/raft/raft.cc:1422-1429). -/
def membership (s : Node P) : Membership P :=
  match s.uncommitted.getLast? with
  | some (_, m) => m
  | none => s.mem

/-- `Raft::membership_quorum_size` (enclave/raft/raft.cc:55-57). -/
def quorum (s : Node P) : Nat := quorumSize s.membership.voting.length s.superMajority

/-- `Raft::voting` (enclave/raft/raft.h:129). -/
def voting (s : Node P) : Bool := decide (s.me ∈ s.membership.voting)

/-- `Raft::SetRole` (enclave/raft/raft.cc:74-81). -/
def setRole (s : Node P) (r : Role) : Node P :=
  { s with role := r, fLeader := none, fElection := 0, votes := [], cElection := 0, followers := OMap.empty,
           heartbeat := 0, relinquishing := false }

/-- `Raft::TakeCommittedLog` (enclave/raft/raft.cc:83-93); `none` for the pair with index 0. -/
def takeCommittedLog (s : Node P) : Out (Node P × Option (Nat × Entry)) :=
  if s.lastApplied ≥ s.commit then .ok (s, none)
  else
    let s := { s with lastApplied := s.lastApplied + 1 }
    match s.log.at? s.lastApplied with
    | none => .abort
    | some e => .ok (s, some (s.lastApplied, e))

/-- `Raft::leader` (enclave/raft/raft.cc:95-102). -/
def leader (s : Node P) : Option P :=
  match s.role with
  | .follower => s.fLeader
  | .candidate => none
  | .leader => some s.me

/-- `Raft::RandomElectionTimeout` (enclave/raft/raft.cc:1368-1370). -/
def randomElection (v : Env P) (s : Node P) : Out (Int × Node P) := do
  let t ← Config.randomElectionTimeout s.cfg.electionTicks (v.rand s.rng)
  .ok ((t : Int), { s with rng := s.rng + 1 })

/-- `Raft::AddSendableMessage` (enclave/raft/raft.cc:1116-1127). -/
def addSendable (s : Node P) (dst : Option P) (m : Msg) : Out (Node P) :=
  match dst with
  | some d => if d = s.me then .abort else .ok { s with sendable := s.sendable ++ [(some d, m)] }
  | none =>
    if s.membership.all.length = 1 ∧ s.me ∈ s.membership.all then .ok s
    else .ok { s with sendable := s.sendable ++ [(none, m)] }

/-- `util::InvalidTicks` (enclave/util/ticks.cc). -/
def invalidTicks : Int := 2 ^ 63 - 1

/-- `Raft::HandleMembershipChange` (enclave/raft/raft.cc:438-472). -/
def handleMembershipChange (s : Node P) : Node P :=
  match s.role with
  | .leader =>
    let added := s.membership.all.foldl (fun fs p =>
      if p ≠ s.me ∧ fs.find p = none then
        fs.insert p { next := s.log.nextIdx, probe := true, hb := true, lastSeen := s.cfg.electionTicks }
      else fs) s.followers
    { s with followers := added.filterK (fun p => decide (p ∈ s.membership.all)) }
  | _ => s

/-- `Raft::AddUncommittedMembership` (enclave/raft/raft.cc:429-436). -/
def addUncommitted (s : Node P) (idx : Nat) (m : Membership P) : Out (Node P) := do
  Out.check (match s.uncommitted.getLast? with
    | none => true
    | some (i, _) => decide (i < idx))
  .ok (handleMembershipChange { s with uncommitted := s.uncommitted ++ [(idx, m)] })

/-- First loop of `Raft::MaybeChangeUncommittedMembershipsBasedOnLog` (enclave/raft/raft.cc:997-1004). -/
def promoteCommitted (commit : Nat) : List (Nat × Membership P) → Membership P → List (Nat × Membership P) × Membership P
  | (i, m) :: t, cur => if i ≤ commit then promoteCommitted commit t m else ((i, m) :: t, cur)
  | [], cur => ([], cur)

/-- Second loop of the same (enclave/raft/raft.cc:1007-1012), on the reversed list. -/
def discardCut (last : Nat) : List (Nat × Membership P) → List (Nat × Membership P)
  | (i, m) :: t => if i > last then discardCut last t else (i, m) :: t
  | [] => []

/-- `Raft::MaybeChangeUncommittedMembershipsBasedOnLog` (enclave/raft/raft.cc:993-1017). `changed` holds when either
loop removed an element. -/
def maybeChangeUncommitted (s : Node P) : Node P :=
  let (u1, m) := promoteCommitted s.commit s.uncommitted s.mem
  let u2 := (discardCut s.log.lastIdx u1.reverse).reverse
  let s' := { s with uncommitted := u2, mem := m }
  if u2.length ≠ s.uncommitted.length then handleMembershipChange s' else s'

/-- `Raft::LogAppend` (enclave/raft/raft.cc:193-220). -/
def logAppend (v : Env P) (s : Node P) (e : Entry) : Out (Node P × Except RErr Loc) := do
  let newMem : Except MemErr (Option (Membership P)) := match e.inner with
    | .membership g => (fromProto (g.map fun r => (v.pid r.1, r.2))).map some
    | _ => .ok none
  match newMem with
  | .error err => .ok (s, .error (.membership err))
  | .ok newMem =>
    let (log, err) ← s.log.append v.z e s.lastApplied
    let s := { s with log := log }
    match err with
    | some err => .ok (s, .error (.log err))
    | none =>
      let loc : Loc := ⟨s.term, s.log.lastIdx, e.hash⟩
      match newMem with
      | none => .ok (s, .ok loc)
      | some m => do
        let s ← s.addUncommitted loc.idx m
        .ok (s, .ok loc)

/-- The input of `Raft::NextHash` to HMAC (enclave/raft/raft.cc:485-506). -/
def hashInput (v : Env P) (idx term : Nat) : Inner → Bytes
  | .data b => [1] ++ (be64 idx ++ be64 term) ++ b
  | .membership g => [2] ++ (be64 idx ++ be64 term) ++ v.ser g
  | .minimums b => [4] ++ (be64 idx ++ be64 term) ++ b
  | .notSet => [3] ++ (be64 idx ++ be64 term)

/-- Key used by `Raft::NextHash`: the newest hash of the log, or zeros (enclave/raft/raft.cc:482-483). -/
def prevHash (s : Node P) : Bytes :=
  match s.log.mostRecentHash with
  | some h => h
  | none => zeros 32

/-- `Raft::NextHash` (enclave/raft/raft.cc:481-507). -/
def nextHash (v : Env P) (s : Node P) (term : Nat) (i : Inner) : Bytes × Node P :=
  let inp := hashInput v s.log.nextIdx term i
  (v.hmac s.prevHash inp, { s with hashed := s.hashed ++ [(s.prevHash, inp)] })

/-- `Raft::ClientRequestInternal` (enclave/raft/raft.cc:510-526). -/
def clientRequestInternal (v : Env P) (s : Node P) (i : Inner) : Out (Node P × Except RErr Loc) :=
  let (h, s) := nextHash v s s.term i
  if s.role ≠ .leader ∨ s.relinquishing then .ok (s, .error .notLeader)
  else logAppend v s ⟨s.term, i, h⟩

/-- `Raft::RequestVoteMessage` (enclave/raft/raft.cc:273-292). -/
def requestVoteMessage (s : Node P) : Out Msg := do
  Out.check (s.role == .candidate)
  .ok ⟨s.group, s.term, .voteReq s.log.lastIdx s.log.lastTerm
    (match s.log.at? s.log.lastIdx with
      | some e => e.hash
      | none => [])⟩

/-- The new term of a candidate, and its vote for itself (enclave/raft/raft.cc:246-257). -/
def startCampaign (s : Node P) : Node P :=
  ({ s with term := wadd s.term 1, votedFor := some s.me, cast := s.cast ++ [(wadd s.term 1, s.me)] } : Node P).setRole
    .candidate

/-- `Raft::ElectionTimeout` (enclave/raft/raft.cc:234-270). -/
def electionTimeout (v : Env P) (s : Node P) : Out (Node P) :=
  if ¬ s.voting then do
    let (t, s) ← s.randomElection v
    .ok { s with fElection := t }
  else match s.role with
    | .leader => .ok s
    | _ => do
      let (t, s) ← s.startCampaign.randomElection v
      let s := { s with votes := [s.me], cElection := t }
      let m ← s.requestVoteMessage
      s.addSendable none m

/-- The entries gathered by `Raft::AppendEntries` (enclave/raft/raft.cc:350-365); `n` is the number of indexes left. -/
def gather (z : Sizes) (l : Log) (chunk : Nat) : Nat → Nat → Nat → List Entry
  | 0, _, _ => []
  | n + 1, idx, total =>
    match l.at? idx with
    | none => []
    | some e => if total + z.bytes e ≥ chunk then [e] else e :: gather z l chunk n (idx + 1) (total + z.bytes e)

/-- The message `Raft::AppendEntries` builds and the index of its last entry; `none` when the log no longer has the
entry before (enclave/raft/raft.cc:335-392). -/
def appendMessage (v : Env P) (s : Node P) (next : Nat) (sendEntries : Bool) : Option (Msg × Nat) :=
  let prevIdx := wsub next 1
  let prevTerm := if prevIdx = 0 then 0 else s.log.termAt prevIdx
  let prevHash := if prevIdx = 0 then [] else match s.log.at? prevIdx with
    | some e => e.hash
    | none => []
  if prevTerm = 0 ∧ prevIdx ≠ 0 then none
  else
    let entries := if sendEntries then gather v.z s.log s.cfg.chunkBytes (s.log.lastIdx + 1 - next) next 0 else []
    let lastEntry := if sendEntries then wadd prevIdx entries.length else prevIdx
    some (⟨s.group, s.term, .appReq prevIdx prevTerm prevHash entries (min s.commit lastEntry)
      (min s.promise lastEntry)⟩, lastEntry)

/-- `next_idx` of `Raft::AppendEntries` (enclave/raft/raft.cc:306). -/
def nextToSend (r : Repl) : Nat :=
  max r.next (match r.inflight with
    | some i => wadd i 1
    | none => 1)

/-- `send_entries` of `Raft::AppendEntries` (enclave/raft/raft.cc:310). -/
def sendsEntries (s : Node P) (r : Repl) : Bool := decide (s.log.lastIdx ≥ nextToSend r) && !r.probe

/-- `have_message_to_send` of `Raft::AppendEntries` (enclave/raft/raft.cc:307, 312). -/
def hasMessage (s : Node P) (r : Repl) : Bool := s.sendsEntries r || (r.hb && r.inflight.isNone) || r.probe || r.upd

/-- Whether `Raft::AppendEntries` holds the message back (enclave/raft/raft.cc:308-309, 317-321). -/
def heldBack (s : Node P) (r : Repl) : Bool :=
  r.inflight.isSome && decide (wsub s.log.lastIdx s.commit ≥ s.cfg.batchBacklog)

/-- `Raft::AppendEntries` (enclave/raft/raft.cc:298-404). -/
def appendEntries (v : Env P) (s : Node P) (peer : P) : Out (Node P) :=
  if s.role ≠ .leader then .ok s
  else match s.followers.find peer with
  | none => .ok s
  | some r =>
    if !s.hasMessage r then .ok s
    else if s.heldBack r then .ok s
    else match s.appendMessage v (nextToSend r) (s.sendsEntries r) with
      | none => .ok s
      | some (m, lastEntry) =>
        let r' : Repl := { r with hb := false, upd := false, inflight := some lastEntry }
        ({ s with followers := s.followers.insert peer r' } : Node P).addSendable (some peer) m

/-- `Raft::MaybeBecomeLeader` (enclave/raft/raft.cc:406-427). -/
def maybeBecomeLeader (v : Env P) (s : Node P) : Out (Node P) :=
  if s.role ≠ .candidate then .ok s
  else if s.votes.length < s.quorum then .ok s
  else do
    let s := { s.setRole .leader with led := s.led ++ [(s.term, s.membership)] }
    let s := { s with followers := s.membership.all.foldl (fun fs p =>
      if p = s.me then fs else fs.insert p { next := s.log.nextIdx }) OMap.empty }
    let (s, _) ← s.clientRequestInternal v .notSet
    .ok s

/-- Insertion into a list sorted in descending order; `std::sort` of `uint64`s has one possible result. -/
def insertDesc (a : Nat) : List Nat → List Nat
  | [] => [a]
  | b :: t => if b ≤ a then a :: b :: t else b :: insertDesc a t

def sortDesc : List Nat → List Nat
  | [] => []
  | a :: t => insertDesc a (sortDesc t)

/-- `v[q-1]` on a `std::vector`: outside the vector (also for `q = 0`, where the index wraps) is undefined. -/
def nth1 (l : List Nat) (q : Nat) : Out Nat :=
  if q = 0 then .ub else match l[q - 1]? with
    | some x => .ok x
    | none => .ub

/-- The replication states of voting followers (enclave/raft/raft.cc:594-599). -/
def votingFollowers (s : Node P) : List Repl :=
  (s.followers.list.filter (fun p => decide (p.1 ∈ s.membership.voting))).map (·.2)

/-- `Raft::MaybeAdvanceCommitIndex` (enclave/raft/raft.cc:571-678). -/
def maybeAdvance (s : Node P) : Out (Node P) :=
  if s.role ≠ .leader then .ok s
  else do
    let stored := sortDesc (s.votingFollowers.map (·.mtch) ++ [s.log.lastIdx])
    let newPromise ← nth1 stored s.quorum
    let promise' := if newPromise > s.promise then newPromise else s.promise
    let promised := sortDesc (s.votingFollowers.map (·.promise) ++ [promise'])
    let newCommit ← nth1 promised s.quorum
    let changed := decide (newPromise > s.promise) || decide (newCommit > s.commit)
    let s := { s with promise := promise' }
    let s := if newCommit > s.commit then
        ({ s with commit := newCommit, cfgs := s.cfgs ++ [s.membership] } : Node P).maybeChangeUncommitted
      else s
    if changed then .ok { s with followers := s.followers.mapV (fun _ r => { r with upd := true }) }
    else .ok s

/-- `MerkleHashFromLogIter` (enclave/raft/raft.cc:1455-1465). -/
def merkleHash (e : Option Entry) : Out Bytes :=
  match e with
  | none => .ok (zeros 8)
  | some e => do
    Out.check (decide (e.hash.length ≥ 8))
    .ok (e.hash.take 8)

/-- `Raft::UpdateMerkleTree` (enclave/raft/raft.cc:1467-1471). -/
def updateMerkle (s : Node P) : Out (Node P) := do
  let c ← merkleHash (s.log.at? s.commit)
  let p ← merkleHash (s.log.at? s.promise)
  .ok { s with commitLeaf := c, promiseLeaf := p }

/-- `Raft::VerifyMerkleTree` (enclave/raft/raft.cc:1473-1484): each leaf must hold the hash given and lead to the root
(`Leaf::Verify`, enclave/merkle/merkle.cc:153-165). -/
def verifyMerkle (v : Env P) (s : Node P) : Out (Node P × Bool) := do
  let c ← merkleHash (s.log.at? s.commit)
  if !(s.commitLeaf == c && v.path s.walks) then .ok ({ s with walks := s.walks + 1 }, false)
  else
    let p ← merkleHash (s.log.at? s.promise)
    if !(s.promiseLeaf == p && v.path (s.walks + 1)) then .ok ({ s with walks := s.walks + 2 }, false)
    else .ok ({ s with walks := s.walks + 2 }, true)

/-- `Raft::TryToRelinquishLeadership` (enclave/raft/raft.cc:1337-1366). -/
def tryToRelinquish (v : Env P) (s : Node P) : Out (Node P) :=
  match s.membership.voting.find? (fun p => decide (p ≠ s.me) && match s.followers.find p with
      | some r => decide (r.mtch = s.log.lastIdx)
      | none => false) with
  | none => .ok s
  | some next => do
    let s ← s.addSendable (some next) ⟨s.group, s.term, .timeoutNow⟩
    let s := s.setRole .follower
    let (t, s) ← s.randomElection v
    .ok { s with fElection := t }

/-- The loop over replicas in `Raft::MaybeChangeStateAndSendMessages` (enclave/raft/raft.cc:1328-1331). -/
def sendAll (v : Env P) : List P → Node P → Out (Node P)
  | [], s => .ok s
  | p :: t, s => if p = s.me then sendAll v t s else do
    let s ← s.appendEntries v p
    sendAll v t s

/-- Lines 1322-1327 of the next function. -/
def verifyAndAdvance (v : Env P) (s : Node P) : Out (Node P) := do
  let (s, ok) ← s.verifyMerkle v
  if ok then do
    let s ← s.maybeAdvance
    s.updateMerkle
  else .ok s

/-- `Raft::MaybeChangeStateAndSendMessages` (enclave/raft/raft.cc:1320-1335). -/
def maybeChangeState (v : Env P) (s : Node P) : Out (Node P) := do
  let s ← s.maybeBecomeLeader v
  let s ← s.verifyAndAdvance v
  let s ← sendAll v s.membership.all s
  if s.role = .leader ∧ s.relinquishing then s.tryToRelinquish v else .ok s

/-- The `switch` of `Raft::TimerTick` (enclave/raft/raft.cc:112-140). -/
def tickRole (v : Env P) (s : Node P) : Out (Node P) :=
  match s.role with
  | .follower =>
    let s := { s with fElection := s.fElection - 1 }
    if 0 ≥ s.fElection then s.electionTimeout v else .ok s
  | .candidate =>
    let s := { s with cElection := s.cElection - 1 }
    if 0 ≥ s.cElection then s.electionTimeout v else .ok s
  | .leader =>
    let s := { s with followers := s.followers.mapV (fun _ (r : Repl) =>
      if r.lastSeen ≠ invalidTicks then { r with lastSeen := r.lastSeen + 1 } else r) }
    let s := { s with heartbeat := s.heartbeat - 1 }
    if 0 ≥ s.heartbeat then
      .ok { s with followers := s.followers.mapV (fun _ r => { r with hb := true }), heartbeat := s.cfg.heartbeatTicks }
    else .ok s

/-- `Raft::TimerTick` (enclave/raft/raft.cc:112-142). -/
def timerTick (v : Env P) (s : Node P) : Out (Node P) := do
  let s ← s.tickRole v
  s.maybeChangeState v

/-- `Raft::ResetPeer` (enclave/raft/raft.cc:144-171). -/
def resetPeer (s : Node P) (id : P) : Out (Node P) :=
  if id ∉ s.membership.all then .ok s
  else match s.role with
    | .follower => .ok s
    | .candidate => do
      let m ← s.requestVoteMessage
      s.addSendable (some id) m
    | .leader =>
      match s.followers.find id with
      | none => .ok s
      | some r =>
        let r' : Repl := { r with next := s.log.lastIdx + 1, probe := true, hb := true, upd := false, inflight := none }
        .ok { s with followers := s.followers.insert id r' }

/-- `Raft::Reconfigure`, `set_election_timeout`, `set_heartbeat_timeout` (enclave/raft/raft.cc:103-111, 172-177). -/
def reconfigure (s : Node P) (c : RaftCfg) : Node P :=
  { s with cfg := c, fElection := min (c.electionTicks : Int) s.fElection,
           cElection := min (c.electionTicks : Int) s.cElection, heartbeat := c.heartbeatTicks }

/-- `Raft::RelinquishLeadership` (enclave/raft/raft.cc:179-191). -/
def relinquishLeadership (v : Env P) (s : Node P) : Out (Node P) :=
  if s.role ≠ .leader ∨ s.relinquishing then .ok s
  else do
    let (s, _) ← s.clientRequestInternal v .notSet
    ({ s with relinquishing := true } : Node P).maybeChangeState v

/-- The checks of `Raft::LogRequest` before it appends (enclave/raft/raft.cc:529-561). -/
def logRequestCheck (v : Env P) (s : Node P) : Inner → Option RErr
  | .membership g =>
    if s.role ≠ .leader ∨ s.relinquishing then some .notLeader
    else if s.uncommitted.length ≠ 0 then some .membershipAlreadyChanging
    else match fromProto (g.map fun r => (v.pid r.1, r.2)) with
      | .error e => some (.membership e)
      | .ok next => (validProgression s.me s.mem next s.superMajority).map RErr.membership
  | _ => none

/-- `Raft::LogRequest` (enclave/raft/raft.cc:528-565). -/
def logRequest (v : Env P) (s : Node P) (i : Inner) : Out (Node P × Except RErr Loc) :=
  match s.logRequestCheck v i with
  | some e => .ok (s, .error e)
  | none => do
    let (s, r) ← s.clientRequestInternal v i
    let s ← s.maybeChangeState v
    .ok (s, r)

/-- The value `grant` of `Raft::HandleVoteRequest` (enclave/raft/raft.cc:690-711). -/
def grants (s : Node P) (mterm lastIdx lastTerm : Nat) (frm : P) : Bool :=
  let logOk := decide (lastTerm > s.log.lastTerm) ||
    (decide (lastTerm = s.log.lastTerm) && decide (lastIdx ≥ s.log.lastIdx))
  decide (mterm = s.term) && logOk && (match s.votedFor with
    | none => true
    | some c => decide (c = frm))

/-- What granting a vote changes (enclave/raft/raft.cc:687-737). -/
def castVote (v : Env P) (s : Node P) (frm : P) : Out (Node P) := do
  let (t, s) ← ({ s with votedFor := some frm, cast := s.cast ++ [(s.term, frm)] } : Node P).randomElection v
  .ok { s with fElection := t }

/-- `Raft::HandleVoteRequest` (enclave/raft/raft.cc:687-737). -/
def handleVoteRequest (v : Env P) (s : Node P) (mterm lastIdx lastTerm : Nat) (frm : P) : Out (Node P) :=
  if mterm > s.term then .ok s
  else if s.grants mterm lastIdx lastTerm frm then do
    let s ← s.castVote v frm
    s.addSendable (some frm) ⟨s.group, s.term, .voteResp true⟩
  else s.addSendable (some frm) ⟨s.group, s.term, .voteResp false⟩

/-- `Raft::HandleVoteResponse` (enclave/raft/raft.cc:741-759). -/
def handleVoteResponse (s : Node P) (mterm : Nat) (granted : Bool) (frm : P) : Node P :=
  if mterm ≠ s.term then s
  else if s.role ≠ .candidate then s
  else if granted ∧ frm ∈ s.membership.voting then { s with votes := sinsert frm s.votes }
  else s

/-- Removal of conflicting entries before index `idx` of a request is considered (enclave/raft/raft.cc:894-914);
`none` when the loop stops instead. -/
def cutConflict (s : Node P) (idx term : Nat) : Option (Node P) :=
  if s.log.termAt idx ≠ 0 ∧ s.log.termAt idx ≠ term then
    if idx ≤ s.commit then none
    else if idx ≤ s.promise then none
    else match s.log.cancelFrom idx with
      | (_, some _) => none
      | (l, none) => some ({ s with log := l } : Node P).maybeChangeUncommitted
  else some s

/-- The loop over the entries of an append request (enclave/raft/raft.cc:892-937): from index `idx`, with
`last_processed_idx` so far; returns it. -/
def appendLoop (v : Env P) : List Entry → Nat → Nat → Node P → Out (Node P × Nat)
  | [], _, lp, s => .ok (s, lp)
  | e :: es, idx, lp, s =>
    match s.cutConflict idx e.term with
    | none => .ok (s, lp)
    | some s =>
      if idx = s.log.lastIdx + 1 then
        let (h, s) := s.nextHash v e.term e.inner
        if ctEq h e.hash = false then .ok (s, lp)
        else do
          let (s, r) ← s.logAppend v e
          match r with
          | .error _ => .ok (s, lp)
          | .ok _ => appendLoop v es (wadd idx 1) idx s
      else appendLoop v es (wadd idx 1) idx s

/-- The reply refusing an append request (enclave/raft/raft.cc:851-881). -/
def rejectAppend (s : Node P) (frm : P) : Out (Node P) :=
  s.addSendable (some frm) ⟨s.group, s.term, .appResp false s.commit s.log.lastIdx s.promise
    (match s.log.at? s.commit with
      | some e => e.hash
      | none => [])⟩

/-- The reply accepting an append request (enclave/raft/raft.cc:939-990). -/
def acceptAppend (s : Node P) (lp : Nat) (frm : P) : Out (Node P) :=
  s.addSendable (some frm) ⟨s.group, s.term, .appResp true lp s.log.lastIdx (min s.promise lp)
    (match s.log.at? lp with
      | some e => e.hash
      | none => [])⟩

/-- The follower's new promise and commit index (enclave/raft/raft.cc:939-990). -/
def followLeader (s : Node P) (leaderCommit leaderPromise : Nat) : Node P :=
  let s := if leaderPromise > s.promise then { s with promise := leaderPromise } else s
  if leaderCommit > s.commit then ({ s with commit := leaderCommit } : Node P).maybeChangeUncommitted else s

/-- From the end of the entry loop to the end of `Raft::HandleAppendRequest` (enclave/raft/raft.cc:939-990). -/
def finishAppend (v : Env P) (s : Node P) (lp mCommit mPromise : Nat) (frm : P) : Out (Node P) :=
  if min mCommit lp > s.commit ∨ min mPromise lp > s.promise then do
    let (s, ok) ← s.verifyMerkle v
    if !ok then .ok s
    else do
      let s ← (s.followLeader (min mCommit lp) (min mPromise lp)).updateMerkle
      s.acceptAppend lp frm
  else s.acceptAppend lp frm

/-- Lines 820-841 of `Raft::HandleAppendRequest`: a message of the current term makes a follower; `none` when the
replica is a leader, which ignores the request. -/
def becomeFollower (v : Env P) (s : Node P) (frm : P) : Out (Option (Node P)) :=
  match s.role with
  | .candidate => do
    let s := s.setRole .follower
    let (t, s) ← s.randomElection v
    .ok (some { s with fLeader := some frm, fElection := t })
  | .follower => do
    let (t, s) ← s.randomElection v
    .ok (some { s with fLeader := some frm, fElection := t })
  | .leader => .ok none

/-- `log_ok` of `Raft::HandleAppendRequest` (enclave/raft/raft.cc:786-803). -/
def logOk (s : Node P) (prevIdx prevTerm : Nat) : Bool :=
  decide (prevIdx = 0) || ((s.log.at? prevIdx).isSome && decide (prevTerm = s.log.termAt prevIdx))

/-- The part of `Raft::HandleAppendRequest` after roles are settled (enclave/raft/raft.cc:843-991). -/
def followAppend (v : Env P) (s : Node P) (mterm prevIdx : Nat) (logOk : Bool) (entries : List Entry)
    (mCommit mPromise : Nat) (frm : P) : Out (Node P) :=
  if mterm < s.term ∨ (mterm = s.term ∧ s.role = .follower ∧ logOk = false) then s.rejectAppend frm
  else do
    Out.check (decide (mterm = s.term))
    Out.check (s.role == .follower)
    Out.check logOk
    let (s, lp) ← appendLoop v entries (wadd prevIdx 1) prevIdx s
    s.finishAppend v lp mCommit mPromise frm

/-- `Raft::HandleAppendRequest` (enclave/raft/raft.cc:765-991). -/
def handleAppendRequest (v : Env P) (s : Node P) (mterm prevIdx prevTerm : Nat) (entries : List Entry)
    (mCommit mPromise : Nat) (frm : P) : Out (Node P) :=
  if mterm > s.term then .ok s
  else if mterm = s.term then do
    match ← s.becomeFollower v frm with
    | none => .ok s
    | some s' => s'.followAppend v mterm prevIdx (s.logOk prevIdx prevTerm) entries mCommit mPromise frm
  else s.followAppend v mterm prevIdx (s.logOk prevIdx prevTerm) entries mCommit mPromise frm

/-- The loop at the end of `Raft::HandleAppendResponse` (enclave/raft/raft.cc:1105-1113): `n` is the loop variable,
`next` and `left` are `replication.next_idx` and `chunk_size_remaining`. The first argument bounds the iterations,
which count `n` down to above the match index. -/
def backUp (z : Sizes) (l : Log) (mtch : Nat) : Nat → Nat → Nat → Nat → Nat
  | 0, _, next, _ => next
  | f + 1, n, next, left =>
    if n = SZ - 1 then next
    else if n ≤ mtch then next
    else
      let size := match l.at? next with
        | some e => z.bytes e
        | none => 0
      if size > left then next
      else backUp z l mtch f (wsub n 1) n (left - size)

/-- The follower's state after a success response (enclave/raft/raft.cc:1031-1084). -/
def replSuccess (r : Repl) (mtch promise : Nat) : Repl :=
  { r with
    inflight := (match r.inflight with
      | some i => if mtch ≥ i then none else some i
      | none => none)
    next := if wadd mtch 1 > r.next then wadd mtch 1 else r.next
    mtch := if mtch > r.mtch then mtch else r.mtch
    promise := if promise > r.promise then promise else r.promise
    probe := false }

/-- `Raft::HandleAppendResponse` (enclave/raft/raft.cc:1021-1114). -/
def handleAppendResponse (v : Env P) (s : Node P) (mterm : Nat) (success : Bool) (mtch last promise : Nat) (hash : Bytes)
    (frm : P) : Out (Node P) :=
  if mterm ≠ s.term then .ok s
  else if s.role ≠ .leader then .ok s
  else match s.followers.find frm with
  | none => .ok s
  | some r =>
    if success then do
      Out.check (match s.log.at? mtch with
        | some e => ctEq hash e.hash
        | none => decide (mtch ≤ s.log.lastIdx))
      .ok { s with followers := s.followers.insert frm (replSuccess r mtch promise) }
    else
      let next := max (wadd mtch 1) (min (wsub r.next 1) (wadd last 1))
      let n := wsub next 1
      let next := backUp v.z s.log mtch (n + 1) n next s.cfg.chunkBytes
      .ok { s with followers := s.followers.insert frm { r with next := next, probe := true, inflight := none } }

/-- The ticks left until an election that `Raft::UpdateTerm` carries over (enclave/raft/raft.cc:1130-1158). -/
def keptTicks (v : Env P) (s : Node P) : Out (Int × Node P) :=
  match s.role with
  | .follower => .ok (s.fElection, s)
  | .candidate => .ok (s.cElection, s)
  | .leader => s.randomElection v

/-- `Raft::UpdateTerm` (enclave/raft/raft.cc:1130-1158). -/
def updateTerm (v : Env P) (s : Node P) (mterm : Nat) : Out (Node P) :=
  if mterm ≤ s.term then .ok s
  else do
    let s := { s with term := mterm }
    let (t, s) ← s.keptTicks v
    let s := s.setRole .follower
    .ok { s with fElection := t, votedFor := none }

inductive MsgErr
  | wrongGroup | notPeer | truncated | termPromised | hashMismatch | appendEntryIndex | indexOrdering | invalidType
deriving DecidableEq

/-- `Raft::CheckLogHash` (enclave/raft/raft.cc:1172-1195); `.ok none` is `error::OK`. -/
def checkLogHash (s : Node P) (idx term : Nat) (hash : Bytes) : Out (Option MsgErr) :=
  if idx = 0 then .ok none
  else if idx < s.log.oldestIdx then .ok (some .truncated)
  else if idx > s.log.lastIdx then .ok none
  else match s.log.at? idx with
    | none => .abort
    | some e =>
      if term ≠ 0 ∧ term > e.term then .ok (if idx > s.promise then none else some .termPromised)
      else if term ≠ 0 ∧ term < e.term then .ok none
      else if ctEq hash e.hash then .ok none else .ok (some .hashMismatch)

/-- The loop over entries in `Raft::ValidateReceivedMessage` (enclave/raft/raft.cc:1228-1234). -/
def checkEntries (s : Node P) : List Entry → Nat → Out (Option MsgErr)
  | [], _ => .ok none
  | e :: es, idx => do
    match ← s.checkLogHash idx e.term e.hash with
    | some err => .ok (some err)
    | none => checkEntries s es (wadd idx 1)

/-- `Raft::ValidateReceivedMessage` (enclave/raft/raft.cc:1197-1254). -/
def validate (s : Node P) (m : Msg) (frm : P) : Out (Option MsgErr) :=
  if m.group ≠ s.group then .ok (some .wrongGroup)
  else if frm ∉ s.membership.all then .ok (some .notPeer)
  else match m.body with
    | .voteReq lastIdx lastTerm lastHash => s.checkLogHash lastIdx lastTerm lastHash
    | .voteResp _ => .ok none
    | .appReq prevIdx prevTerm prevHash entries commit promise => do
      match ← s.checkLogHash prevIdx prevTerm prevHash with
      | some e => .ok (some e)
      | none =>
        if commit > wadd prevIdx entries.length then .ok (some .appendEntryIndex)
        else if promise > wadd prevIdx entries.length then .ok (some .appendEntryIndex)
        else if commit > promise then .ok (some .indexOrdering)
        else s.checkEntries entries (wadd prevIdx 1)
    | .appResp _ mtch last promise hash => do
      match ← s.checkLogHash mtch 0 hash with
      | some e => .ok (some e)
      | none => if mtch > last ∨ promise > last then .ok (some .indexOrdering) else .ok none
    | .timeoutNow => .ok none
    | .notSet => .ok (some .invalidType)

/-- The dispatch of `Raft::Receive` (enclave/raft/raft.cc:1275-1316); the stale term test is
`ShouldDropResponseDueToStaleTerm` (enclave/raft/raft.cc:1161-1170). -/
def dispatch (v : Env P) (s : Node P) (m : Msg) (frm : P) : Out (Node P) :=
  match m.body with
  | .voteReq lastIdx lastTerm _ => s.handleVoteRequest v m.term lastIdx lastTerm frm
  | .voteResp granted => if m.term < s.term then .ok s else .ok (s.handleVoteResponse m.term granted frm)
  | .appReq prevIdx prevTerm _ entries commit promise =>
    s.handleAppendRequest v m.term prevIdx prevTerm entries commit promise frm
  | .appResp success mtch last promise hash =>
    if m.term < s.term then .ok s else s.handleAppendResponse v m.term success mtch last promise hash frm
  | .timeoutNow => if m.term < s.term then .ok s else s.electionTimeout v
  | .notSet => .ok s

/-- The leader notes that a follower is alive (enclave/raft/raft.cc:1264-1273). -/
def markSeen (s : Node P) (frm : P) : Node P :=
  if s.role = .leader then match s.followers.find frm with
    | some r => { s with followers := s.followers.insert frm { r with lastSeen := 0 } }
    | none => s
  else s

/-- `Raft::Receive` (enclave/raft/raft.cc:1257-1318). -/
def receive (v : Env P) (s : Node P) (m : Msg) (frm : P) : Out (Node P) := do
  match ← s.validate m frm with
  | some _ => .ok s
  | none => do
    let s ← s.updateTerm v m.term
    let s ← (s.markSeen frm).dispatch v m frm
    s.maybeChangeState v

/-- `Raft::SendableMessages` (enclave/raft/raft.h:162): the messages are moved out, leaving an empty vector. -/
def takeSendable (s : Node P) : Node P × List (Option P × Msg) := ({ s with sendable := [] }, s.sendable)

/-- `Raft::Raft` (enclave/raft/raft.cc:19-53). -/
def new (v : Env P) (group : Nat) (me : P) (mem : Membership P) (log : Log) (cfg : RaftCfg) (committedLog : Bool)
    (superMajority : Nat) : Out (Node P) := do
  let at0 := if committedLog then log.lastIdx else 0
  let s : Node P :=
    { group, me, mem, uncommitted := [], cfg, lastApplied := at0, term := 0, votedFor := none, role := .follower,
      fLeader := none, fElection := 0, votes := [], cElection := 0, followers := OMap.empty, heartbeat := 0,
      relinquishing := false, log, commitLeaf := zeros 8, commit := at0, promiseLeaf := zeros 8, promise := at0,
      sendable := [], superMajority, rng := 0, walks := 0, hashed := [], cast := [], led := [],
      cfgs := [] }
  let (t, s) ← s.randomElection v
  let s ← ({ s with fElection := t } : Node P).updateMerkle
  if s.voting ∧ s.membership.voting.length = 1 then do
    let s ← s.electionTimeout v
    let s ← s.maybeChangeState v
    Out.check (decide (s.sendable.length = 0))
    .ok s
  else .ok s

end Node

end Svr.Raft
