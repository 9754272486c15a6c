import Verif.Locks.Lang

/-!
What the enclave's functions do with their mutexes, function by function (core/core.cc, peers/peers.cc,
client/client.cc, timeout/timeout.cc, groupclock/groupclock.cc, minimums/minimums.cc, db/db4.cc, socketwrap/socket.cc).

Left out everywhere: what is computed; writing to the log (`LOG`), which takes only `WriteQueue::mu_`, and takes it
as `send` does; `CHECK`s that abort; raft.cc, merkle.cc and the databases, which have no mutexes (apart from
`DB4::ClientState`); waiting on condition variables, which gives the mutex back (here: unlock and lock again).
-/

namespace Svr.Locks

/-- What is called when a log entry is committed (`LogTransactionCallback`): core.cc:1619-1676 for a client,
786-797 host database request, 832-838 relinquish, 1561-1567 removal asked for by peer `p`, 899-906 minimums,
700-711 membership. -/
inductive LogCb
  | client (c : Nat) | hostDb | relinquish | removal (p : Nat) | minimums | membership
  deriving DecidableEq

/-- What is called when a transaction with a peer ends (`E2ECallback`): core.cc:258-260 and 279-281 and 855-858
(only reply), 528-591 joining, 628-646 replication, 694-712 membership, 1330-1347 a push of replication `x` to peer `p`,
1701-1719 a forwarded write, 1729-1734 a timestamp. -/
inductive Cb
  | reply | join | replicate | membership | push (p x : Nat) | write (cb : LogCb) | stamp
  deriving DecidableEq

/-- What is called when a timer runs out: core.cc:1954-1963 the end of a transaction's time, 686-691 asking for
membership again, 1743-1745 sending the time again. -/
inductive Tm | txn | membership | stamps
  deriving DecidableEq

/-- Stored callbacks: waiting for a peer's answer (`outstanding_e2e_transactions_`), taken out of there and about to be
run, waiting for a commit (`outstanding_log_transactions_`), timers (`timeouts_`), timers about to be run. -/
inductive Act
  | e2e (p : Nat) (cb : Cb) | ready (p : Nat) (cb : Cb) | log (cb : LogCb) | timer (t : Tm) | due (t : Tm)
  deriving DecidableEq

/-- The functions.  Numbers name peers, clients, replications and objects of class `Minimums` (0 is the core's own). -/
inductive Fn
  | send
  | timerTick | setTimeout (t : Tm) | cancelTimeout | fire (t : Tm)
  | setRemoteTime | getTime
  | updateLimits (m : Nat) | checkValues (m : Nat) | currentLimits (m : Nat)
  | config
  | peerSend (p : Nat) | peerRecv (p : Nat) | peerConnect (p : Nat) | peerAccept (p : Nat) | peerDisconnect (p : Nat)
  | peerState (p : Nat) | peerTooOld (p : Nat) | peerStatus (p : Nat) | peerMinimums (p m : Nat)
  | pmState (p : Nat) | pmInit | pmRefresh | pmCreate | pmGet | pmGetOrRst | pmArgs | pmConnect (p : Nat)
  | pmReset (p : Nat) | pmSend (p : Nat) | pmRecv (p : Nat) | pmConnected | pmAll | pmSetTime | pmMinimums
  | pmCheckMinimums (m : Nat) | pmStatus (p : Nat)
  | cInit (c : Nat) | cStart (c : Nat) | cHandshaking (c : Nat) | cFinish (c : Nat) | cDecrypt (c : Nat)
  | cEncrypt (c : Nat) | csRequest (c : Nat) | csEffect (c : Nat)
  | cmNew (c : Nat) | cmGet | cmRemove | cmRotate | cmRefresh | cmArgs
  | coreInit | receive | hostToEnclave | newClient | existingClient (c : Nat) | createGroup | joinRaft (p : Nat)
  | joinFromFirst (p : Nat) | requestReplication (p : Nat) | promote | requestMembership | refreshAttestation | status
  | hostDb | reconfigure | relinquish | hostRemoval (p : Nat) | hostHashes | updateMinimums (m : Nat)
  | coreTick | groupTime | groupTimeLocked | connectToMembers | peerMessage (p : Nat) | handleE2E (p : Nat)
  | peerConnected (p : Nat) | e2eTransaction (p : Nat) | replicateRequest (p x : Nat) | sendNext (p x : Nat)
  | replicatePush | requestedMembership | requestedVoting | raftWrite | newTimestamp | peerRemoval (p : Nat)
  | raftStep | raftSend | addLog (cb : LogCb) | writeLog (cb : LogCb) | sendTimestamp (p : Nat) | timestampToAll
  | e2eError (p : Nat) | resetPeer (p : Nat) | committed | membershipChange | minimumsChange | logTransactions
  | sendTxn (p : Nat) (cb : Cb)
  | writeThread | readPB

/-- Programs of the enclave. -/
abbrev Prog := Cmd Fn Act

namespace Prog
scoped infixr:60 " ⨾ " => Cmd.seq
/-- One of several. -/
def alts : List Prog → Prog
  | [] => .skip
  | [a] => a
  | a :: r => .alt a (alts r)
/-- Perhaps. -/
def opt (a : Prog) : Prog := .alt a .skip
end Prog

open Prog Cmd

/-- The mutexes of which there is one. -/
def one (c : Cls) : Lock := ⟨c, 0⟩

/-- Which stored callbacks are of which kind. -/
def Act.isE2E : Act → Bool | .e2e .. => true | _ => false
@[inherit_doc Act.isE2E] def Act.isReady : Act → Bool | .ready .. => true | _ => false
@[inherit_doc Act.isE2E] def Act.isLog : Act → Bool | .log .. => true | _ => false
@[inherit_doc Act.isE2E] def Act.isTimer : Act → Bool | .timer .. => true | _ => false
@[inherit_doc Act.isE2E] def Act.isDue : Act → Bool | .due .. => true | _ => false

/-- The callbacks for committed entries.  core.cc:1619-1676: reply with an error and forget the client, or find the
client, turn the effect into a response, encrypt and send it.  786-797, 832-838, 899-906: reply.  1561-1567: answer the
peer.  700-711: cancel the timer if all is well, reply. -/
def onLog : LogCb → Prog
  | .client c =>
    alts [call .send ⨾ call .cmRemove,
      call .cmGet ⨾ alts [call .send ⨾ call .cmRemove,
        call (.csEffect c) ⨾ alts [call .send ⨾ call .cmRemove,
          call (.cEncrypt c) ⨾ alts [call .send, call .send ⨾ call .cmRemove]]]]
  | .hostDb => call .send
  | .relinquish => call .send
  | .removal p => call (.e2eError p)
  | .minimums => call .send
  | .membership => opt (call .cancelTimeout) ⨾ call .send

/-- core.cc:1336-1346, the part of a push's callback that runs with `raft_.mu`. -/
def pushLocked (p x : Nat) : Prog :=
  locked (one .raft) (alts [exchange x (opt (call (.sendNext p x))) (call (.e2eError p)), opt (call (.sendNext p x))])

/-- A branch that is marked if the callback is run by `SendE2ETransaction` itself. -/
def mark (inl : Bool) (a : Prog) : Prog := if inl then lost a else a

/-- The callbacks of transactions with peers, called with an error; `inl` says whether they are called by
`SendE2ETransaction` itself (core.cc:1949), that is, with what its caller holds still locked.  core.cc:529-532, 629-634,
695-698, 1731-1733; 1705-1708 hands the error on.  1331-1336: a push returns if the flag `sent_response` is set; else sets
it and answers the peer; if somebody else sets the flag between the two, the `else if` fails and the code after it runs. -/
def onErr (inl : Bool) : Cb → Prog
  | .reply => call .send
  | .join => call .send
  | .replicate => call .send
  | .membership => skip
  | .push p x => load x skip (exchange x (mark inl (pushLocked p x)) (call (.e2eError p)))
  | .write cb => onLog cb
  | .stamp => skip

/-- The callbacks of transactions with peers, called with an answer.  core.cc:533-591 (`minimums_.UpdateLimits`,
connecting, new log and database, then replication); 635-646; 699-711; 1331, 1336-1346; 1702-1719; 1729-1734. -/
def onOk : Cb → Prog
  | .reply => call .send
  | .join =>
    locked (one .raft) (alts [call .send,
      call (.updateLimits 0) ⨾ alts [call .send,
        loop (any fun q => call (.pmConnect q)) ⨾ alts [call .send,
          call .config ⨾ any fun q => call (.requestReplication q)]]])
  | .replicate =>
    locked (one .raft) (call .groupTimeLocked ⨾ call (.currentLimits 0) ⨾ call .cmRefresh ⨾
      alts [call .send, call .pmMinimums ⨾ call .promote])
  | .membership => call (.addLog .membership)
  | .push p x => load x skip (pushLocked p x)
  | .write cb => alts [onLog cb, call (.addLog cb)]
  | .stamp => skip

/-- What each function does.  The lines of the source are given with each group. -/
def body : Fn → Prog
  -- sender/sender.cc:11-23, env/socket/socket.cc:69-74, socketwrap/socket.cc:103-134
  | .send => locked (one .out) skip
  -- timeout/timeout.cc:11-28: the timers that ran out are taken out under the mutex and run after it was given back
  | .timerTick =>
    locked (one .timeout) (loop (take Act.isTimer fun | .timer t => put (.due t) | _ => skip)) ⨾
      loop (take Act.isDue fun | .due t => call (.fire t) | _ => skip)
  -- timeout/timeout.cc:30-57
  | .setTimeout t => locked (one .timeout) (put (.timer t))
  -- timeout/timeout.cc:59-69
  | .cancelTimeout => locked (one .timeout) (take Act.isTimer fun _ => skip)
  -- core.cc:1954-1963
  | .fire .txn =>
    locked (one .e2e) (take Act.isE2E fun | .e2e p cb => put (.ready p cb) | _ => skip) ⨾
      take Act.isReady fun | .ready _ cb => onErr false cb | _ => skip
  -- core.cc:686-691
  | .fire .membership => locked (one .raft) (opt (call .requestMembership))
  -- core.cc:1743-1745
  | .fire .stamps => call .timestampToAll
  -- groupclock/groupclock.cc:16-19, 21-47
  | .setRemoteTime => locked (one .clock) skip
  | .getTime => locked (one .clock) skip
  -- minimums/minimums.cc:11-47, 62-65 (and the printing at 108-111), 49-53 (and minimums.h:27-30)
  | .updateLimits m => locked ⟨.minimums, m⟩ skip
  | .checkValues m => locked ⟨.minimums, m⟩ skip
  | .currentLimits m => locked ⟨.minimums, m⟩ skip
  -- core.cc:181-186
  | .config => locked (one .config) skip
  -- peers/peers.cc:71-99, 404-410
  | .peerSend p => locked ⟨.peer, p⟩ (opt (call .send))
  -- peers/peers.cc:101-217, 439-452
  | .peerRecv p => locked ⟨.peer, p⟩ (opt (call (.checkValues 0)) ⨾ opt (call .send))
  -- peers/peers.cc:219-287
  | .peerConnect p => locked ⟨.peer, p⟩ (opt (call .send))
  -- peers/peers.cc:289-371
  | .peerAccept p => locked ⟨.peer, p⟩ (opt (call (.checkValues 0)) ⨾ opt (call .send))
  -- peers/peers.cc:373-377
  | .peerDisconnect p => locked ⟨.peer, p⟩ (call .send)
  -- peers/peers.cc:379-382
  | .peerState p => locked ⟨.peer, p⟩ skip
  -- peers/peers.cc:454-470
  | .peerTooOld p => locked ⟨.peer, p⟩ (opt (call .send))
  -- peers/peers.cc:472-476
  | .peerStatus p => locked ⟨.peer, p⟩ skip
  -- peers/peers.cc:478-488
  | .peerMinimums p m => locked ⟨.peer, p⟩ (opt (call (.checkValues m) ⨾ opt (call (.currentLimits m))))
  -- peers/peers.cc:497-504
  | .pmState p => locked (one .peers) (opt (call (.peerState p)))
  -- peers/peers.cc:506-534
  | .pmInit => opt (locked (one .peers) skip)
  -- peers/peers.cc:543-570
  | .pmRefresh =>
    opt (locked (one .peers) (loop (any fun q => call (.peerState q) ⨾ opt (call (.peerSend q)))))
  -- peers/peers.cc:572-581, 583-590
  | .pmCreate => locked (one .peers) skip
  | .pmGet => locked (one .peers) skip
  -- peers/peers.cc:592-600
  | .pmGetOrRst => locked (one .peers) (opt (call .send))
  -- peers/peers.cc:603-609
  | .pmArgs => locked (one .peers) skip
  -- peers/peers.cc:611-638
  | .pmConnect p => opt (call .pmCreate ⨾ call .pmArgs ⨾ call (.peerConnect p))
  -- peers/peers.cc:640-653
  | .pmReset p => opt (call .pmGetOrRst ⨾ opt (call (.peerDisconnect p)))
  -- peers/peers.cc:655-670
  | .pmSend p => opt (call .pmGetOrRst ⨾ opt (call (.peerSend p)))
  -- peers/peers.cc:672-698
  | .pmRecv p =>
    alts [skip, call .pmCreate ⨾ call .pmArgs ⨾ call (.peerAccept p), call .pmGet ⨾ opt (call (.peerRecv p)),
      call .pmGetOrRst ⨾ opt (call (.peerRecv p))]
  -- peers/peers.cc:700-709
  | .pmConnected => locked (one .peers) (loop (any fun q => call (.peerState q)))
  -- peers/peers.cc:711-718
  | .pmAll => locked (one .peers) skip
  -- peers/peers.cc:720-735
  | .pmSetTime => opt (locked (one .peers) (loop (any fun q => call (.peerTooOld q))))
  -- peers/peers.cc:737-744
  | .pmMinimums =>
    locked (one .peers) (loop (any fun q => call (.peerMinimums q 0) ⨾ opt (call (.peerDisconnect q))))
  -- peers/peers.cc:746-755
  | .pmCheckMinimums m => locked (one .peers) (loop (any fun q => call (.peerMinimums q m)))
  -- peers/peers.cc:757-761
  | .pmStatus p => call .pmGet ⨾ opt (call (.peerStatus p))
  -- client/client.cc:59-86; client.h:31-34, 36-39; client.cc:88-127, 129-143, 145-156
  | .cInit c => locked ⟨.client, c⟩ skip
  | .cStart c => locked ⟨.client, c⟩ skip
  | .cHandshaking c => locked ⟨.client, c⟩ skip
  | .cFinish c => locked ⟨.client, c⟩ skip
  | .cDecrypt c => locked ⟨.client, c⟩ skip
  | .cEncrypt c => locked ⟨.client, c⟩ skip
  -- db/db4.cc:107-149, 151-169
  | .csRequest c => locked ⟨.cstate, c⟩ skip
  | .csEffect c => opt (locked ⟨.cstate, c⟩ skip)
  -- client/client.cc:158-174
  | .cmNew c => call .cmArgs ⨾ call (.cInit c) ⨾ opt (locked (one .clients) skip)
  -- client/client.cc:176-182, 184-192
  | .cmGet => locked (one .clients) skip
  | .cmRemove => locked (one .clients) skip
  -- client/client.cc:209-226
  | .cmRotate => opt (locked (one .clients) skip)
  -- client/client.cc:228-249
  | .cmRefresh => call .cmArgs ⨾ opt (locked (one .clients) skip)
  -- client/client.cc:267-270
  | .cmArgs => locked (one .clients) skip
  -- core.cc:107-161
  | .coreInit => call .pmInit ⨾ locked (one .config) skip ⨾ call .pmSetTime ⨾ call .timestampToAll
  -- core.cc:188-214
  | .receive =>
    alts [call .hostToEnclave, call .coreTick, any fun p => call (.resetPeer p), any fun p => call (.peerMessage p), skip]
  -- core.cc:216-370
  | .hostToEnclave =>
    alts [skip, any fun c => call (.existingClient c) ⨾ opt (call .cmRemove ⨾ call .send), call .cmRemove ⨾ call .send,
      call .newClient, call .createGroup, any fun p => call (.joinRaft p), call .send, any fun p => call (.sendTxn p .reply),
      call .pmRefresh ⨾ call .refreshAttestation ⨾ call .send,
      locked (one .raft) (alts [call .send, any fun p => call (.sendTxn p .reply)]),
      call .status ⨾ call .send, call .hostDb ⨾ opt (call .send), call .reconfigure ⨾ call .send, call .relinquish,
      any fun p => call (.hostRemoval p), call .hostHashes ⨾ opt (call .send),
      any fun p => call (.resetPeer p) ⨾ call .send, any fun m => call (.updateMinimums (m + 1)),
      any fun p => call (.pmConnect p) ⨾ call .send]
  -- core.cc:372-388
  | .newClient => any fun c => call (.cmNew c) ⨾ alts [call .send, call (.cStart c) ⨾ call .send]
  -- core.cc:390-441
  | .existingClient c =>
    call .cmGet ⨾ alts [skip, call (.cHandshaking c) ⨾
      alts [call (.cFinish c) ⨾ opt (call .send),
        call (.cDecrypt c) ⨾ opt (call (.csRequest c) ⨾ alts [skip, call (.cEncrypt c) ⨾ opt (call .send),
          call (.writeLog (.client c))])]]
  -- core.cc:443-485
  | .createGroup =>
    locked (one .raft) (alts [call .send, call .config ⨾ call .raftStep ⨾ call .groupTimeLocked ⨾ call .send])
  -- core.cc:487-517
  | .joinRaft p =>
    locked (one .raft) (alts [call .send, call (.pmState p) ⨾ alts [call (.joinFromFirst p), skip, call (.pmConnect p)]])
  -- core.cc:519-592
  | .joinFromFirst p => call (.sendTxn p .join)
  -- core.cc:594-647
  | .requestReplication p => opt (opt (call .pmConnected) ⨾ opt (call (.sendTxn p .replicate)))
  -- core.cc:649-673
  | .promote => call .config ⨾ call .requestMembership
  -- core.cc:675-713
  | .requestMembership =>
    call .config ⨾ call (.setTimeout .membership) ⨾ loop (any fun q => call (.sendTxn q .membership))
  -- core.cc:715-735
  | .refreshAttestation =>
    locked (one .raft) skip ⨾ opt (call (.currentLimits 0) ⨾ alts [call .cmRotate, call .cmRefresh])
  -- core.cc:737-770
  | .status => locked (one .raft) (call .pmAll ⨾ loop (any fun q => call (.pmStatus q)))
  -- core.cc:772-798
  | .hostDb => opt (call (.writeLog .hostDb))
  -- core.cc:800-816
  | .reconfigure => locked (one .config) skip ⨾ opt (locked (one .raft) skip)
  -- core.cc:818-840
  | .relinquish => locked (one .raft) (alts [call .send, call (.addLog .relinquish) ⨾ call .raftStep])
  -- core.cc:842-860
  | .hostRemoval p => locked (one .raft) (alts [call .send, call (.sendTxn p .reply)])
  -- core.cc:862-883
  | .hostHashes => locked (one .raft) (opt (call .send))
  -- core.cc:885-911 (`to_check` is a copy with a mutex of its own)
  | .updateMinimums m =>
    call (.currentLimits 0) ⨾ call (.updateLimits m) ⨾ alts [call .send, call (.pmCheckMinimums m) ⨾
      alts [call .send, call (.writeLog .minimums) ⨾ opt (call .send)]]
  -- core.cc:913-940
  | .coreTick =>
    call .timerTick ⨾ locked (one .raft) (call .groupTimeLocked ⨾ opt (call .connectToMembers ⨾ call .raftStep))
  -- core.cc:942-945
  | .groupTime => locked (one .raft) (call .groupTimeLocked)
  -- core.cc:947-1006
  | .groupTimeLocked => loop (call .pmConnected ⨾ call .getTime ⨾ call .pmSetTime)
  -- core.cc:1009-1021
  | .connectToMembers => loop (any fun q => call (.pmConnect q))
  -- core.cc:1089-1106
  | .peerMessage p => call (.pmRecv p) ⨾ opt (call (.handleE2E p))
  -- core.cc:1108-1149
  | .handleE2E p =>
    alts [call (.peerConnected p), locked (one .raft) (opt (call .raftStep)), call (.e2eTransaction p),
      locked (one .e2e) (take Act.isE2E fun | .e2e q cb => put (.ready q cb) ⨾ call .cancelTimeout | _ => skip) ⨾
        take Act.isReady fun | .ready _ cb => alts [onErr false cb, onOk cb] | _ => skip,
      skip]
  -- core.cc:1151-1179
  | .peerConnected p =>
    call (.sendTimestamp p) ⨾
      locked (one .raft) (alts [any fun q => call (.requestReplication q), call (.joinFromFirst p), skip])
  -- core.cc:1181-1232
  | .e2eTransaction p =>
    alts [any fun x => call (.replicateRequest p x), call (.peerRemoval p),
      alts [skip, locked (one .raft) (opt (call (.currentLimits 0))), call .replicatePush, call .requestedMembership,
        call .requestedVoting, call .raftWrite, call .newTimestamp] ⨾ alts [call (.e2eError p), call (.pmSend p)]]
  -- core.cc:1234-1265
  | .replicateRequest p x =>
    locked (one .raft) (alts [call (.e2eError p), call .config ⨾ loop (call (.sendNext p x))])
  -- core.cc:1267-1348
  | .sendNext p x =>
    call .config ⨾ alts [exchange x skip (call (.e2eError p)), call (.currentLimits 0) ⨾ call (.sendTxn p (.push p x))]
  -- core.cc:1350-1423
  | .replicatePush => locked (one .raft) (opt (call (.updateLimits 0)))
  -- core.cc:1447-1471, 1473-1504, 1506-1526
  | .requestedMembership => locked (one .raft) (opt (call .raftStep))
  | .requestedVoting => locked (one .raft) (opt (call .raftStep))
  | .raftWrite => locked (one .raft) (opt (call .raftStep))
  -- core.cc:1528-1531
  | .newTimestamp => call .setRemoteTime ⨾ call .groupTime
  -- core.cc:1533-1573
  | .peerRemoval p =>
    locked (one .raft) (alts [call (.e2eError p), call (.addLog (.removal p)) ⨾ call .raftStep])
  -- core.cc:1575-1580
  | .raftStep => call .raftSend ⨾ call .committed
  -- core.cc:1582-1607
  | .raftSend => loop (any fun q => call (.pmSend q))
  -- core.cc:1609-1617
  | .addLog cb => locked (one .logTx) (put (.log cb))
  -- core.cc:1678-1722
  | .writeLog cb =>
    locked (one .raft) (alts [skip, call (.addLog cb) ⨾ call .raftStep, any fun q => call (.sendTxn q (.write cb))])
  -- core.cc:1724-1735
  | .sendTimestamp p => call (.sendTxn p .stamp)
  -- core.cc:1737-1746
  | .timestampToAll =>
    call .pmConnected ⨾ loop (any fun q => call (.sendTimestamp q)) ⨾ call .config ⨾ call (.setTimeout .stamps)
  -- core.cc:1748-1757
  | .e2eError p => call (.pmSend p)
  -- core.cc:1759-1783
  | .resetPeer p =>
    locked (one .e2e)
        (loop (take Act.isE2E fun | .e2e q cb => call .cancelTimeout ⨾ put (.ready q cb) | _ => skip)) ⨾
      call (.pmReset p) ⨾
      loop (take Act.isReady fun | .ready _ cb => onErr false cb | _ => skip)
  -- core.cc:1785-1823
  | .committed =>
    loop (alts [call .membershipChange, skip, call .minimumsChange] ⨾ call .logTransactions)
  -- core.cc:1825-1857
  | .membershipChange =>
    opt (locked (one .logTx) (loop (take Act.isLog fun | .log cb => onLog cb | _ => skip))) ⨾ call .groupTimeLocked
  -- core.cc:1859-1885
  | .minimumsChange =>
    call (.updateLimits 0) ⨾ call .pmMinimums ⨾ opt (call (.currentLimits 0) ⨾ call .cmRefresh)
  -- core.cc:1904-1928
  | .logTransactions => locked (one .logTx) (loop (take Act.isLog fun | .log cb => onLog cb | _ => skip))
  -- core.cc:1930-1972: sending fails, the mutex is given back and the callback called; or it is stored
  | .sendTxn p cb =>
    alts [locked (one .e2e) (call (.pmSend p)) ⨾ onErr true cb,
      locked (one .e2e) (call (.pmSend p) ⨾ opt (call .config ⨾ call (.setTimeout .txn)) ⨾ put (.e2e p cb))]
  -- socketwrap/socket.cc:146-205
  | .writeThread => locked (one .wr) (loop (locked (one .out) skip))
  -- socketwrap/socket.cc:67-96
  | .readPB => locked (one .rd) skip

/-- Where threads begin: a message from the host (ecalls/ecalls.cc:80-94), starting (43-78), the writing thread and
reading from the socket. -/
def entries : List Fn := [.receive, .coreInit, .writeThread, .readPB]

end Svr.Locks
