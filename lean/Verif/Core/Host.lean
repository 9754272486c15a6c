import Verif.Bytes

/-!
# Model of the host's requests and of the way into a group (enclave/core/core.cc)

`HandleHostToEnclave` with all its branches, and what happens later on behalf of a request: the callbacks of transactions with peers,
of log transactions and of the timer for membership. Of each handler is kept what it does with the state of joining (`raft_.state`
and which pointers of `raft_` are null), which callbacks it stores, and which responses it sends to the host. Everything else the
handlers look at (does `LogRequest` accept, who leads, does a message parse, ...) comes in with the event, as anything it may be.

Simplified: an error is its number, 0 is `OK`; peers are numbers; a step is one message or one callback (what a callback reads and
writes is under `raft_.mu`; for the order of the mutexes see `Locks`). A replication is named by the number of the transaction that
asked for it instead of the random `replication_id`, so that two are never the same. Which log transaction is called when, and that
a callback of a transaction with a peer is called once, are C37 and C38; here any of those waiting may be called at any time.
`ended` and the argument of `Origin.copy` are not in the code: they record which replications sent all they had to.
-/

namespace Svr.Core.Host

/-- A `HostToEnclaveResponse` (shared/proto/msgs.proto:97-108): a status, or the reply of this type of request. -/
inductive Rep
  | status (e : Nat)
  | reply
deriving DecidableEq

/-- `Core_RaftState` and the other errors that this file makes itself (shared/proto/error.proto); which is which does not matter. -/
def raftState : Nat := 209
def leaderUnknown : Nat := 214
def transactionReset : Nat := 243
def transactionTimeout : Nat := 215
def someError : Nat := 1

/-- `RaftState` (shared/proto/msgs.proto). -/
inductive Tag
  | noState | waiting | loading | requesting | part
deriving DecidableEq

/-- `Loading` (enclave/core/internal.h:24-36): which pointers are not null, `load_from`, `join_tx`, `started`, `replication_id`. -/
structure Loading where
  log : Bool
  db : Bool
  mem : Bool
  source : Nat
  tx : Nat
  started : Bool
  id : Nat
deriving DecidableEq

/-- `raft_.loading` after `ClearState` (enclave/core/internal.h:55-64). -/
def Loading.clear : Loading := ⟨false, false, false, 0, 0, false, 0⟩

/-- Where the database of a loaded replica came from: it created the group, or the rows of a replication. -/
inductive Origin
  | created
  | copy (id : Nat)
deriving DecidableEq

/-- The callbacks of log transactions: of a client's request, the host's database request, minimums, giving up leadership
(enclave/core/core.cc:1619-1676, 787-797, 899-906, 831-837), of the membership asked for (699-711), of a removal asked for by a
peer (1564-1570). -/
inductive LogCb
  | client (tx : Nat)
  | database (tx : Nat)
  | minimums (tx : Nat)
  | relinquish (tx : Nat)
  | membership (tx timer : Nat)
  | removal
deriving DecidableEq

/-- The callbacks of transactions with peers: those that answer the host with what the peer said (ping, voting, removal;
enclave/core/core.cc:258-261, 278-281, 856-859), of `JoinRaftFromFirstPeer` (528-591), `RequestRaftReplication` (627-646),
`RaftRequestMembership` (693-712), `SendNextReplicationState` (1329-1347), `RaftWriteLogTransaction` (1701-1719) and
`SendTimestamp` (1729-1734). -/
inductive Cb
  | answer (tx : Nat)
  | join (tx peer : Nat)
  | replicate (tx : Nat)
  | membership (tx timer : Nat)
  | push
  | write (cb : LogCb)
  | stamp
deriving DecidableEq

/-- An outstanding transaction with a peer. -/
structure Call where
  id : Nat
  peer : Nat
  cb : Cb
deriving DecidableEq

/-- The enclave. `loaded` is `raft_.loaded`, whose pointers are all null or all not (`none`: null). `timers` are the timers of
`RaftRequestMembership` with their transaction of the host. -/
structure St where
  tag : Tag
  waitPeer : Nat
  waitTx : Nat
  loading : Loading
  loaded : Option Origin
  calls : List Call
  lastCall : Nat
  logs : List LogCb
  timers : List (Nat × Nat)
  lastTimer : Nat
  replies : List (Nat × Rep)
  ended : List Nat

/-- `Core::Core`. -/
def init : St := ⟨.noState, 0, 0, .clear, none, [], 0, [], [], 0, [], []⟩

/-- `Raft::ClearState` (enclave/core/internal.h:49-72). -/
def St.clear (s : St) : St :=
  { s with tag := .noState, waitPeer := 0, waitTx := 0, loading := .clear, loaded := none }

/-- `ReplyWithError` and other responses (enclave/core/core.cc:76-85). -/
def St.say (s : St) (tx : Nat) (r : Rep) : St := { s with replies := s.replies ++ [(tx, r)] }

/-- A callback of a log transaction. `err` is its argument; `out` is what else can go wrong for a client's request: `effect` is null,
the client is gone, the effect is not its, encryption fails (enclave/core/core.cc:1639-1660), 0 if nothing. -/
def St.logDone (s : St) (cb : LogCb) (err out : Nat) : St :=
  match cb with
  | .client tx => s.say tx (if err ≠ 0 then .status err else if out ≠ 0 then .status out else .reply)
  | .database tx => s.say tx (.status err)
  | .minimums tx => s.say tx (.status err)
  | .relinquish tx => s.say tx (.status err)
  | .membership tx t =>
    { (s.say tx (.status err)) with timers := if err = 0 then s.timers.filter (fun x => x.1 ≠ t) else s.timers }
  | .removal => s

/-- A callback of a transaction with a peer, called with an error. -/
def St.fail (s : St) (cb : Cb) (err : Nat) : St :=
  match cb with
  | .answer tx => s.say tx (.status err)
  | .join tx _ => s.say tx (.status err)
  | .replicate tx => s.say tx (.status err)
  | .membership _ _ => s
  | .push => s
  | .write cb => s.logDone cb err 0
  | .stamp => s

/-- What `SendToPeer` says to each transaction, by number. -/
abbrev Sends := Nat → Nat

/-- `Core::SendE2ETransaction` (enclave/core/core.cc:1930-1972). -/
def St.send (w : Sends) (s : St) (peer : Nat) (cb : Cb) : St :=
  let s1 := { s with lastCall := s.lastCall + 1 }
  if w s1.lastCall ≠ 0 then s1.fail cb (w s1.lastCall)
  else { s1 with calls := s1.calls ++ [⟨s1.lastCall, peer, cb⟩] }

/-- `Core::AddLogTransaction` (enclave/core/core.cc:1609-1617). -/
def St.addLog (s : St) (cb : LogCb) : St := { s with logs := s.logs ++ [cb] }

/-- The loop of `RaftRequestMembership` over the peers (enclave/core/core.cc:693-712). -/
def St.sendAll (w : Sends) (s : St) (cb : Cb) : List Nat → St
  | [] => s
  | p :: r => (s.send w p cb).sendAll w cb r

/-- `Core::RaftRequestMembership` (enclave/core/core.cc:675-713); `peers` are those of `raft_.loaded.raft`. -/
def St.requestMembership (w : Sends) (s : St) (tx : Nat) (peers : List Nat) : Out St :=
  if s.tag ≠ .requesting then .abort
  else if s.loaded = none then .ub
  else
    let s1 := { s with lastTimer := s.lastTimer + 1, timers := s.timers ++ [(s.lastTimer + 1, tx)] }
    .ok (s1.sendAll w (.membership tx s1.lastTimer) peers)

/-- `Core::PromoteRaftToLoaded` (enclave/core/core.cc:649-673). -/
def St.promote (w : Sends) (s : St) (peers : List Nat) : Out St :=
  let l := s.loading
  if !l.log || !l.mem then .ub
  else { s.clear with tag := .requesting, loaded := some (.copy l.id) }.requestMembership w l.tx peers

/-- `Core::JoinRaftFromFirstPeer` (enclave/core/core.cc:519-528). -/
def St.joinFromFirst (w : Sends) (s : St) : Out St :=
  if s.tag ≠ .waiting then .abort else .ok (s.send w s.waitPeer (.join s.waitTx s.waitPeer))

/-- `Core::RequestRaftReplication` (enclave/core/core.cc:594-628); `quorum`: enough voting replicas are connected. -/
def St.requestReplication (w : Sends) (s : St) (quorum : Bool) : Out St :=
  if s.tag ≠ .loading then .ok s
  else if !s.loading.started && !s.loading.mem then .ub
  else if !s.loading.started && !quorum then .ok s
  else
    let s1 := { s with loading := { s.loading with started := true, id := s.lastCall + 1 } }
    .ok (s1.send w s.loading.source (.replicate s.loading.tx))

/-- What comes with a response without an error, and what the callbacks meet. -/
structure Answer where
  /-- `get_raft`: what is wrong with it (its configuration, no replicas, membership, minimums, peer ids, connecting; enclave/core/core.cc:545-576), 0 if nothing -/
  bad : Nat
  /-- are enough voting replicas connected -/
  quorum : Bool
  /-- `RefreshAttestation` (enclave/core/core.cc:638) -/
  refresh : Nat
  /-- the peers of the new `Raft` -/
  peers : List Nat
  /-- for a push: it was not the last one, and no other one was -/
  more : Bool
  /-- `raft_write` is missing (enclave/core/core.cc:1711-1714) -/
  wrong : Bool

/-- `SendNextReplicationState` (enclave/core/core.cc:1267-1348) in what concerns this file: it reads `raft_.loaded` and sends. -/
def St.pushNext (w : Sends) (s : St) (peer : Nat) : Out St :=
  if s.loaded = none then .ub else .ok (s.send w peer .push)

/-- A callback of a transaction with `peer`, called with a response. -/
def St.answered (w : Sends) (s : St) (peer : Nat) (cb : Cb) (a : Answer) : Out St :=
  match cb with
  | .answer tx => .ok (s.say tx (.status 0))
  | .join tx q =>
    if s.tag ≠ .waiting then .ok (s.say tx (.status raftState))
    else if a.bad ≠ 0 then .ok (s.say tx (.status a.bad))
    else { s.clear with tag := .loading, loading := ⟨true, true, true, q, tx, false, 0⟩ }.requestReplication w a.quorum
  | .replicate tx =>
    if !s.loading.db then .ub
    else if s.tag = .loading ∧ !s.loading.mem then .ub
    else if a.refresh ≠ 0 then .ok (s.say tx (.status a.refresh))
    else s.promote w a.peers
  | .membership tx t => .ok (s.addLog (.membership tx t))
  | .push => if a.more then s.pushNext w peer else .ok s
  | .write cb => if a.wrong then .ok (s.logDone cb someError 0) else .ok (s.addLog cb)
  | .stamp => .ok s

/-- What `Raft` says when it is asked: is this replica leading, voting, who leads, are there enough voters, does `LogRequest`
accept (0) or not. -/
structure View where
  leading : Bool
  voting : Bool
  leader : Option Nat
  enough : Bool
  log : Nat

/-- `Core::RaftWriteLogTransaction` (enclave/core/core.cc:1678-1722): an error, or the callback will be called. -/
def St.write (w : Sends) (s : St) (v : View) (cb : LogCb) : Out (St × Nat) :=
  if s.tag ≠ .part then .ok (s, raftState)
  else if s.loaded = none then .ub
  else if v.leading then
    if !v.enough then .ok (s, someError)
    else if v.log ≠ 0 then .ok (s, v.log)
    else .ok (s.addLog cb, 0)
  else match v.leader with
    | some p => .ok (s.send w p (.write cb), 0)
    | none => .ok (s, leaderUnknown)

/-- If there was an error the host is told (enclave/core/core.cc:232-235, 316-318, 907-911). -/
def St.orSay (tx : Nat) (r : St × Nat) : St := if r.2 ≠ 0 then r.1.say tx (.status r.2) else r.1

/-- What `ResetPeer` does with the transactions (enclave/core/core.cc:1759-1783). -/
def St.resetPeer (s : St) (p : Nat) : St :=
  (s.calls.filter (·.peer = p)).foldl (fun t c => t.fail c.cb transactionReset) { s with calls := s.calls.filter (·.peer ≠ p) }

/-- What a client's message leads to (enclave/core/core.cc:390-441): an error, a reply at once, a log entry. -/
inductive ClientWay
  | error (e : Nat)
  | reply
  | log

/-- `HostToEnclaveRequest` (shared/proto/msgs.proto:70-95), with what the handlers meet. Peer ids that do not parse are `none`. -/
inductive Req
  | newClient (err : Nat)
  | existingClient (way : ClientWay) (v : View)
  | closeClient
  | createGroup (random : Nat)
  | join (peer : Option Nat) (connected connecting : Bool)
  | ping (peer : Option Nat)
  | refresh (err : Nat)
  | requestVoting (v : View)
  | status (err : Nat)
  | metrics
  | database (err : Nat) (v : View)
  | reconfigure (err : Nat)
  | logLevel (valid : Bool)
  | relinquish (v : View)
  | requestRemoval (v : View)
  | hashes (found : Bool)
  | resetPeer (peer : Option Nat) (err : Nat)
  | updateMinimums (err : Nat) (v : View)
  | connectPeer (peer : Option Nat) (err : Nat)
  | metadata (err : Nat)
  | unknown

/-- `Core::HandleCreateNewRaftGroupRequest` (enclave/core/core.cc:443-485). -/
def St.createGroup (s : St) (tx random : Nat) : St :=
  if s.tag ≠ .noState then s.say tx (.status raftState)
  else if random ≠ 0 then s.say tx (.status random)
  else { s with tag := .part, loaded := some .created }.say tx (.status 0)

/-- `Core::HandleJoinRaft` (enclave/core/core.cc:487-517). -/
def St.join (w : Sends) (s : St) (tx : Nat) (peer : Option Nat) (connected connecting : Bool) : Out St :=
  if s.tag = .part then .ok (s.say tx (.status raftState))
  else match peer with
    | none => .ok (s.say tx (.status raftState))
    | some p =>
      let s1 := { s.clear with tag := .waiting, waitPeer := p, waitTx := tx }
      if connected then s1.joinFromFirst w
      else if connecting then .ok s1
      else .ok s1

/-- `Core::HandleRelinquishLeadership` (enclave/core/core.cc:818-840). -/
def St.relinquish (s : St) (tx : Nat) (v : View) : Out St :=
  if s.tag ≠ .part then .ok (s.say tx (.status 0))
  else if s.loaded = none then .ub
  else if !v.leading then .ok (s.say tx (.status 0))
  else .ok (s.addLog (.relinquish tx))

/-- `Core::HandleHostRequestedRaftRemoval` (enclave/core/core.cc:842-860). -/
def St.hostRemoval (w : Sends) (s : St) (tx : Nat) (v : View) : Out St :=
  if s.tag ≠ .part then .ok (s.say tx (.status raftState))
  else if s.loaded = none then .ub
  else if v.leading then .ok (s.say tx (.status someError))
  else match v.leader with
    | none => .ok (s.say tx (.status leaderUnknown))
    | some p => .ok (s.send w p (.answer tx))

/-- `HandleHostToEnclave` for a request to become a voter (enclave/core/core.cc:267-283). -/
def St.requestVoting (w : Sends) (s : St) (tx : Nat) (v : View) : Out St :=
  if s.tag ≠ .part then .ok (s.say tx (.status raftState))
  else if s.loaded = none then .ub
  else if v.voting then .ok (s.say tx (.status someError))
  else match v.leader with
    | none => .ok (s.say tx (.status leaderUnknown))
    | some p => .ok (s.send w p (.answer tx))

/-- `Core::HandleHostToEnclave` (enclave/core/core.cc:216-370). A request it does not know, and one without a number, are refused
with the value it returns, and no response is sent. -/
def St.host (w : Sends) (s : St) (tx : Nat) (r : Req) : Out St :=
  if tx = 0 then .ok s
  else match r with
    | .newClient e => .ok (s.say tx (if e ≠ 0 then .status e else .reply))
    | .existingClient (.error e) _ => .ok (s.say tx (.status e))
    | .existingClient .reply _ => .ok (s.say tx .reply)
    | .existingClient .log v => do let r ← s.write w v (.client tx); pure (St.orSay tx r)
    | .closeClient => .ok (s.say tx (.status 0))
    | .createGroup e => .ok (s.createGroup tx e)
    | .join p a b => s.join w tx p a b
    | .ping none => .ok (s.say tx (.status someError))
    | .ping (some p) => .ok (s.send w p (.answer tx))
    | .refresh e =>
      .ok (s.say tx (.status (if e ≠ 0 then e else if s.tag = .noState ∨ s.tag = .waiting then someError else 0)))
    | .requestVoting v => s.requestVoting w tx v
    | .status e =>
      if s.tag = .part ∧ s.loaded = none then .ub else .ok (s.say tx (if e ≠ 0 then .status e else .reply))
    | .metrics => .ok (s.say tx .reply)
    | .database e v =>
      if e ≠ 0 then .ok (s.say tx (.status e)) else do let r ← s.write w v (.database tx); pure (St.orSay tx r)
    | .reconfigure e =>
      if e = 0 ∧ (s.tag = .part ∨ s.tag = .requesting) ∧ s.loaded = none then .ub else .ok (s.say tx (.status e))
    | .logLevel ok => .ok (s.say tx (.status (if ok then 0 else someError)))
    | .relinquish v => s.relinquish tx v
    | .requestRemoval v => s.hostRemoval w tx v
    | .hashes found =>
      if s.tag ≠ .part ∧ s.tag ≠ .requesting then .ok (s.say tx (.status raftState))
      else if s.loaded = none then .ub
      else .ok (s.say tx (if found then .reply else .status someError))
    | .resetPeer none _ => .ok (s.say tx (.status someError))
    | .resetPeer (some p) e => .ok ((s.resetPeer p).say tx (.status e))
    | .updateMinimums e v =>
      if e ≠ 0 then .ok (s.say tx (.status e)) else do let r ← s.write w v (.minimums tx); pure (St.orSay tx r)
    | .connectPeer none _ => .ok (s.say tx (.status someError))
    | .connectPeer (some _) e => .ok (s.say tx (.status e))
    | .metadata e => .ok (s.say tx (if e ≠ 0 then .status e else .reply))
    | .unknown => .ok s

/-- How far `HandleReplicateStatePush` gets (enclave/core/core.cc:1350-1423) with the right `replication_id`: it is refused before the
membership is taken over, the membership does not parse, an error occurs later, or it is accepted, and is the last or not. -/
inductive PushWay
  | refused
  | badMembership
  | failed
  | accepted (last : Bool)

/-- What can happen. -/
inductive Ev
  /-- a request of the host -/
  | host (tx : Nat) (r : Req)
  /-- a connection to a peer is made (enclave/core/core.cc:1151-1179) -/
  | connected (p : Nat) (quorum : Bool)
  /-- a peer responds (enclave/core/core.cc:1127-1145) -/
  | respond (p id status : Nat) (a : Answer)
  /-- a transaction times out (enclave/core/core.cc:1954-1963) -/
  | expire (id : Nat)
  /-- the host says that a peer is gone (enclave/core/core.cc:199-204) -/
  | reset (p : Nat)
  /-- the `i`-th timer for membership runs out (enclave/core/core.cc:686-691) -/
  | timer (i : Nat) (peers : List Nat)
  /-- the `i`-th log transaction is called for a committed entry (enclave/core/core.cc:1904-1928) -/
  | logDone (i err out : Nat)
  /-- a membership change is committed, with this replica in it or not (enclave/core/core.cc:1825-1857) -/
  | change (me : Bool)
  /-- a push of replicated state (enclave/core/core.cc:1350-1423) for replication `id` -/
  | push (id : Nat) (way : PushWay)
  /-- a peer asks for replication, `n` pushes are sent at once (enclave/core/core.cc:1234-1265) -/
  | ask (p n : Nat)
  /-- a peer asks to be removed (enclave/core/core.cc:1533-1573); `log` is what `LogRequest` says -/
  | removal (log : Nat)
  /-- other messages, timers: what is read of `raft_` (enclave/core/core.cc:913-1021, 1117-1124, 1447-1526) -/
  | other

/-- `Core::SendNextReplicationState` `n` times. -/
def St.pushes (w : Sends) (s : St) (p : Nat) : Nat → Out St
  | 0 => .ok s
  | n + 1 => do let t ← s.pushNext w p; t.pushes w p n

/-- `Core::HandlePeerConnect` (enclave/core/core.cc:1151-1179). -/
def St.connected (w : Sends) (s : St) (p : Nat) (quorum : Bool) : Out St :=
  let s1 := s.send w p .stamp
  match s1.tag with
  | .loading => if s1.loading.started then .ok s1 else s1.requestReplication w quorum
  | .waiting => if p = s1.waitPeer then s1.joinFromFirst w else .ok s1
  | .requesting => if s1.loaded = none then .ub else .ok s1
  | .part => if s1.loaded = none then .ub else .ok s1
  | .noState => .ok s1

/-- One step. -/
def step (w : Sends) (s : St) : Ev → Out St
  | .host tx r => s.host w tx r
  | .connected p q => s.connected w p q
  | .respond p id status a =>
    match s.calls.find? (·.id = id) with
    | none => .ok s
    | some c =>
      if c.peer ≠ p then .ok s
      else
        let s1 := { s with calls := s.calls.filter (·.id ≠ id) }
        if status ≠ 0 then .ok (s1.fail c.cb status) else s1.answered w p c.cb a
  | .expire id =>
    match s.calls.find? (·.id = id) with
    | none => .ok s
    | some c => .ok ({ s with calls := s.calls.filter (·.id ≠ id) }.fail c.cb transactionTimeout)
  | .reset p => .ok (s.resetPeer p)
  | .timer i peers =>
    match s.timers[i]? with
    | none => .ok s
    | some (_, tx) =>
      let s1 := { s with timers := s.timers.eraseIdx i }
      if s1.tag = .requesting then s1.requestMembership w tx peers else .ok s1
  | .logDone i err out =>
    if s.tag ≠ .part ∧ s.tag ≠ .requesting then .ok s
    else match s.logs[i]? with
      | none => .ok s
      | some cb => .ok ({ s with logs := s.logs.eraseIdx i }.logDone cb err out)
  | .change me =>
    match s.tag with
    | .part =>
      if me then .ok s
      else .ok (s.logs.foldl (fun t cb => t.logDone cb someError 0) { s with tag := .requesting, logs := [] })
    | .requesting => .ok (if me then { s with tag := .part } else s)
    | _ => .ok s
  | .push id way =>
    if s.tag ≠ .loading then .ok s
    else if !s.loading.log then .ub
    else if s.loading.id ≠ id then .ok s
    else
      let s1 := { s with loading := { s.loading with mem := true } }
      match way with
      | .refused => .ok s
      | .badMembership => .ok { s with loading := { s.loading with mem := false } }
      | .failed => if s.loading.db then .ok s1 else .ub
      | .accepted last => if s.loading.db then .ok (if last then { s1 with ended := id :: s1.ended } else s1) else .ub
  | .ask p n => if s.tag ≠ .part then .ok s else s.pushes w p n
  | .removal log =>
    if s.tag ≠ .part then .ok s
    else if s.loaded = none then .ub
    else .ok (if log ≠ 0 then s else s.addLog .removal)
  | .other =>
    match s.tag with
    | .loading => if s.loading.mem then .ok s else .ub
    | .requesting => if s.loaded = none then .ub else .ok s
    | .part => if s.loaded = none then .ub else .ok s
    | _ => .ok s

/-- Many steps. -/
def run (w : Sends) : St → List Ev → Out St
  | s, [] => .ok s
  | s, e :: es => do let t ← step w s e; run w t es

end Svr.Core.Host
