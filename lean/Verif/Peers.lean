import Verif.Bytes
import Verif.OMap
import Verif.Minimums
import Verif.Noise

/-!
# Model of `enclave/peers/peers.cc`: attested sessions with other enclaves

The libraries under this code (attestation, Noise handshakes, the AEAD, protobuf) are the fields of `Lib`; nothing is assumed
of them here. Threads interleave: every call of the manager first looks the peer up, then waits for the lock of that peer,
and works on the peer while it holds the lock. The clock and the minimums are read by the holder of a lock while other
threads may change them, so `World` separates these moments. Metrics and log lines are left out.
-/

namespace Svr.Peers

open Minimums (Limits Values)

abbrev Id := Bytes

inductive Role | initiator | responder
deriving DecidableEq

/-- `NOISE_ACTION_...` -/
inductive Action | write | read | split | other
deriving DecidableEq

/-- The errors of this file. `attest` and `minimums` stand for the errors of the functions called. -/
inductive Err
  | sendBeforeConnect | encryptSerialize | encrypt | synAckNotConnecting | dataNotConnected | decrypt | decryptParse | invalidMsg
  | handshakeState | finishParseHandshake | attest | arrayCopyTooBig | finishIDMismatch | minimums (e : Minimums.Err)
  | finishReadHandshake | finishSplit | connectWriteHandshake | connectSerializeHandshake | acceptParseHandshake
  | acceptIDMismatch | acceptReadHandshake | acceptWriteHandshake | acceptSerializeHandshake | acceptSplit
  | copyDHState | setRemotePublicKey | handshakeStart | attestationKeyChanged
  | noInit | reInit | resetMissingPeer | sendConnect | invalidID | recvBeforeConnect
deriving DecidableEq

/-- `e2e::EnclaveToEnclaveMessage`: only what this file looks at. -/
inductive Msg
  /-- `connected = true` -/
  | connected
  /-- `attestation_update` -/
  | update (evidence : Bytes)
  /-- anything else, also a message with nothing set -/
  | other (body : Bytes)
deriving DecidableEq

/-- `PeerMessage` without the peer id (shared/proto/msgs.proto:31-39); `unset` has no field of the `oneof`. -/
inductive Wire | syn (b : Bytes) | synack (b : Bytes) | data (b : Bytes) | rst | unset
deriving DecidableEq

/-- The libraries. `Hs` is a `NoiseHandshakeState`, `Key` the key of a `NoiseCipherState`, `Priv` a `NoiseDHState`. -/
structure Lib where
  Hs : Type
  Key : Type
  Priv : Type
  /-- `env::environment->Attest`: the public key and the minimum values in a piece of evidence that is good at that time -/
  attest : Int → Bytes → Option (Bytes × Values)
  /-- the four calls that set up a handshake (enclave/peers/peers.cc:414-433), with the private key of this enclave and the
  public key of the other -/
  new : Role → Priv → Id → Except Err Hs
  /-- `noise_handshakestate_get_action` -/
  action : Hs → Action
  /-- `noise_handshakestate_write_message`, with its randomness -/
  write : Hs → Bytes → Option (Hs × Bytes)
  /-- `noise_handshakestate_read_message` -/
  read : Hs → Bytes → Option Hs
  /-- `noise_handshakestate_split`: the keys to send and to receive -/
  split : Hs → Option (Key × Key)
  /-- the cipher of a key -/
  aead : Key → Noise.Aead
  /-- `noise_cipherstate_rekey`: by the Noise specification it changes the key and leaves the nonce -/
  rekey : Key → Key
  /-- `e2e::ConnectRequest`, evidence and handshake -/
  parseConn : Bytes → Option (Bytes × Bytes)
  serConn : Bytes → Bytes → Option Bytes
  parseMsg : Bytes → Option Msg
  serMsg : Msg → Option Bytes

structure Cipher (L : Lib) where
  key : L.Key
  nonce : Nat

/-- `Peer` (enclave/peers/peers.h:140-149), without its id, its lock and its parent. -/
structure Peer (L : Lib) where
  handshake : Option L.Hs
  tx : Option (Cipher L)
  txRekey : UInt8
  rx : Option (Cipher L)
  rxRekey : UInt8
  lastAttestation : Int
  minimums : Values

inductive PeerState | disconnected | connecting | connected
deriving DecidableEq

variable {L : Lib}

/-- `Peer::Peer` (enclave/peers/peers.cc:61-69). -/
def Peer.new : Peer L :=
  { handshake := none, tx := none, txRekey := 0, rx := none, rxRekey := 0, lastAttestation := 0, minimums := .empty }

/-- `Peer::InternalCurrentState` (enclave/peers/peers.cc:384-392). -/
def Peer.state (p : Peer L) : PeerState :=
  if p.handshake.isSome then .connecting
  else if p.tx.isSome ∧ p.rx.isSome then .connected
  else .disconnected

/-- `Peer::InternalDisconnect` (enclave/peers/peers.cc:394-402). -/
def Peer.drop (p : Peer L) : Peer L :=
  { p with handshake := none, tx := none, rx := none, txRekey := 0, rxRekey := 0, lastAttestation := 0, minimums := .empty }

/-- What a call leaves: the peer, messages sent to it, the error (`none` is `OK`) and `*decoded`. -/
structure Ret (L : Lib) where
  peer : Peer L
  sent : List Wire
  err : Option Err
  decoded : Option Msg

def fail (p : Peer L) (e : Err) : Out (Ret L) := .ok ⟨p, [], some e, none⟩

/-- The three lines `InternalDisconnect(); SendRst(ctx, id_); return err;`. -/
def failRst (p : Peer L) (e : Err) : Out (Ret L) := .ok ⟨p.drop, [.rst], some e, none⟩

/-- `Peer::Send` (enclave/peers/peers.cc:71-99). -/
def send (L : Lib) (msg : Msg) (p : Peer L) : Out (Ret L) :=
  if p.state ≠ .connected then fail p .sendBeforeConnect
  else match L.serMsg msg, p.tx with
    | none, _ => fail p .encryptSerialize
    | some _, none => .ub
    | some b, some c => do
      match ← Noise.encrypt (L.aead c.key) Noise.maxMessage true c.nonce b with
      | (_, none) => failRst p .encrypt
      | (n, some ct) =>
        let k := p.txRekey + 1
        let key := if k = 0 then L.rekey c.key else c.key
        .ok ⟨{ p with tx := some ⟨key, n⟩, txRekey := k }, [.data ct], none, none⟩

/-- `util::StringToByteArray<32>` (enclave/util/bytes.h:24-38): too long is an error, too short is filled up with zeros. -/
def toKey (s : Bytes) : Option Bytes := if s.length > 32 then none else some (s ++ zeros (32 - s.length))

/-- `Peer::FinishConnection` (enclave/peers/peers.cc:167-217). `ts` and `lim` are what it reads from its parent. The peer
returned with an error still has to be disconnected by the caller. -/
def finishConnection (L : Lib) (id : Id) (ts : Int) (lim : Limits) (synack : Bytes) (p : Peer L) : Out (Ret L) :=
  match p.handshake with
  | none => .ub
  | some h =>
    if L.action h ≠ .read then fail p .handshakeState
    else
      let p := { p with handshake := none }
      match L.parseConn synack with
      | none => fail p .finishParseHandshake
      | some (ev, hs) =>
        match L.attest ts ev with
        | none => fail p .attest
        | some (pub, vals) =>
          match toKey pub with
          | none => fail p .arrayCopyTooBig
          | some key =>
            if ctEq key id = false then fail p .finishIDMismatch
            else match Minimums.checkValues lim vals with
              | some e => fail p (.minimums e)
              | none =>
                match L.read h hs with
                | none => fail p .finishReadHandshake
                | some h =>
                  if L.action h ≠ .split then fail p .handshakeState
                  else match L.split h with
                    | none => fail p .finishSplit
                    | some (tx, rx) =>
                      .ok ⟨{ p with minimums := vals, tx := some ⟨tx, 0⟩, rx := some ⟨rx, 0⟩, txRekey := 0, rxRekey := 0,
                                    lastAttestation := ts }, [], none, some .connected⟩

/-- `Peer::CheckNextAttestation` (enclave/peers/peers.cc:439-452). -/
def checkNextAttestation (L : Lib) (id : Id) (ts : Int) (lim : Limits) (ev : Bytes) (p : Peer L) : Peer L × Option Err :=
  match L.attest ts ev with
  | none => (p, some .attest)
  | some (pub, vals) =>
    if ctEq pub id = false then (p, some .attestationKeyChanged)
    else match Minimums.checkValues lim vals with
      | some e => (p, some (.minimums e))
      | none => ({ p with lastAttestation := ts, minimums := vals }, none)

/-- `Peer::Recv` (enclave/peers/peers.cc:101-165). -/
def recv (L : Lib) (id : Id) (ts : Int) (lim : Limits) (msg : Wire) (p : Peer L) : Out (Ret L) :=
  match msg with
  | .synack b =>
    if p.state ≠ .connecting then failRst p .synAckNotConnecting
    else do
      let r ← finishConnection L id ts lim b p
      match r.err with
      | some e => failRst r.peer e
      | none => pure r
  | .data ct =>
    if p.state ≠ .connected then failRst p .dataNotConnected
    else match p.rx with
      | none => .ub
      | some c => do
        match ← Noise.decrypt (L.aead c.key) Noise.maxMessage true c.nonce ct with
        | (_, none) => failRst p .decrypt
        | (n, some pt) =>
          let k := p.rxRekey + 1
          let key := if k = 0 then L.rekey c.key else c.key
          let p := { p with rx := some ⟨key, n⟩, rxRekey := k }
          match L.parseMsg pt with
          | none => fail p .decryptParse
          | some (.update ev) =>
            match checkNextAttestation L id ts lim ev p with
            | (p, some e) => failRst p e
            | (p, none) => .ok ⟨p, [], none, none⟩
          | some m => .ok ⟨p, [], none, some m⟩
  | .rst => .ok ⟨p.drop, [], none, none⟩
  | .syn _ => .abort
  | .unset => fail p .invalidMsg

/-- `Peer::Reset` (enclave/peers/peers.cc:412-437). -/
def reset (L : Lib) (id : Id) (priv : L.Priv) (role : Role) (p : Peer L) : Peer L × Option Err :=
  match L.new role priv id with
  | .error e => (p.drop, some e)
  | .ok h => ({ p.drop with handshake := some h }, none)

/-- `Peer::InternalConnect` (enclave/peers/peers.cc:242-287), with the randomness of the handshake. -/
def internalConnect (L : Lib) (id : Id) (priv : L.Priv) (att rnd : Bytes) (p : Peer L) : Out (Ret L) :=
  match reset L id priv .initiator p with
  | (p, some e) => fail p e
  | (p, none) =>
    match p.handshake with
    | none => .abort
    | some h =>
      let p := { p with handshake := none }
      if L.action h ≠ .write then fail p .handshakeState
      else match L.write h rnd with
        | none => fail p .connectWriteHandshake
        | some (h, hs) =>
          match L.serConn att hs with
          | none => fail p .connectSerializeHandshake
          | some b => .ok ⟨{ p with handshake := some h }, [.syn b], none, none⟩

/-- `Peer::MaybeConnect` (enclave/peers/peers.cc:227-240). -/
def maybeConnect (L : Lib) (id : Id) (priv : L.Priv) (att rnd : Bytes) (p : Peer L) : Out (Ret L) :=
  match p.state with
  | .connecting => .ok ⟨p, [], none, none⟩
  | .connected => .ok ⟨p, [], none, none⟩
  | .disconnected => internalConnect L id priv att rnd p

/-- `Peer::Accept` (enclave/peers/peers.cc:289-371). -/
def accept (L : Lib) (id : Id) (ts : Int) (lim : Limits) (priv : L.Priv) (att syn rnd : Bytes) (p : Peer L) : Out (Ret L) :=
  match reset L id priv .responder p with
  | (p, some e) => fail p e
  | (p, none) =>
    match p.handshake with
    | none => .abort
    | some h =>
      let p := { p with handshake := none }
      if L.action h ≠ .read then fail p .handshakeState
      else match L.parseConn syn with
        | none => fail p .acceptParseHandshake
        | some (ev, hs) =>
          match L.attest ts ev with
          | none => fail p .attest
          | some (pub, vals) =>
            if ctEq pub id = false then fail p .acceptIDMismatch
            else match Minimums.checkValues lim vals with
              | some e => fail p (.minimums e)
              | none =>
                match L.read h hs with
                | none => fail p .acceptReadHandshake
                | some h =>
                  if L.action h ≠ .write then fail p .handshakeState
                  else match L.write h rnd with
                    | none => fail p .acceptWriteHandshake
                    | some (h, out) =>
                      match L.serConn att out with
                      | none => fail p .acceptSerializeHandshake
                      | some b =>
                        if L.action h ≠ .split then fail p .handshakeState
                        else match L.split h with
                          | none => fail p .acceptSplit
                          | some (tx, rx) =>
                            .ok ⟨{ p with minimums := vals, tx := some ⟨tx, 0⟩, rx := some ⟨rx, 0⟩, txRekey := 0, rxRekey := 0,
                                          lastAttestation := ts }, [.synack b], none, some .connected⟩

/-- A result of 64-bit signed arithmetic; overflow is undefined. -/
def i64 (x : Int) : Out Int := if -(2 ^ 63) ≤ x ∧ x < 2 ^ 63 then .ok x else .ub

/-- "our attestation timestamp is in a good range" (enclave/peers/peers.cc:460). -/
def inRange (now timeout last : Int) : Out Bool := do
  let hi ← i64 (last + timeout)
  if now ≤ hi then
    let lo ← i64 (last - timeout)
    pure (decide (now ≥ lo))
  else pure false

/-- `Peer::MaybeDisconnectIfAttestationTooOld` (enclave/peers/peers.cc:454-470); `UnixSecs` is `time_t`, a signed 64-bit
number (enclave/util/ticks.h:14). Second: whether it disconnected the peer. -/
def maybeDisconnect (now timeout : Int) (p : Peer L) : Out (Ret L × Bool) :=
  let stays : Out (Ret L × Bool) := .ok (⟨p, [], none, none⟩, false)
  if p.state = .disconnected then stays
  else do
    let good ← inRange now timeout p.lastAttestation
    if good = true ∨ (p.state = .connecting ∧ p.lastAttestation = 0) then stays
    else .ok (⟨p.drop, [.rst], none, none⟩, true)

/-- `Peer::CheckMinimums` (enclave/peers/peers.cc:478-488). -/
def checkMinimums (lim : Limits) (p : Peer L) : Option Minimums.Err :=
  if p.state ≠ .connected then none else Minimums.checkValues lim p.minimums

/-! ## The manager and its threads -/

/-- What a thread does once it has the lock of its peer. -/
inductive Op (L : Lib)
  | connect (priv : L.Priv) (att : Bytes)
  | maybeConnect (priv : L.Priv) (att : Bytes)
  | accept (priv : L.Priv) (att syn : Bytes)
  | recv (msg : Wire)
  | send (msg : Msg)
  | disconnect

/-- A call of a method of `Peer` that took its lock when the manager's clock was `ts`; `rnd` is the randomness it uses. -/
def exec (L : Lib) (id : Id) (ts : Int) (lim : Limits) (rnd : Bytes) (p : Peer L) : Op L → Out (Ret L)
  | .connect priv att => internalConnect L id priv att rnd p
  | .maybeConnect priv att => Peers.maybeConnect L id priv att rnd p
  | .accept priv att syn => Peers.accept L id ts lim priv att syn rnd p
  | .recv msg => Peers.recv L id ts lim msg p
  | .send msg => Peers.send L msg p
  | .disconnect => .ok ⟨p.drop, [.rst], none, none⟩

/-- The work of the one thread that holds core's Raft lock: `SetPeerAttestationTimestamp` after it changed the clock, waiting
for the manager's lock or with the peers it has yet to visit, or `MinimumsUpdated`, between its check of a peer and
disconnecting it (`bad`) or not. -/
inductive Task
  | timeWait (secs timeout : Int)
  | timeSweep (secs timeout : Int) (todo : List Id)
  | minSweep (todo : List Id) (bad : Bool)

/-- `PeerManager` (enclave/peers/peers.h:260-269) and the threads in it. -/
structure World (L : Lib) where
  /-- `dhstate_` and `most_recent_attestation_` once `init_success_` -/
  ready : Option (L.Priv × Bytes)
  peers : OMap Id (Peer L)
  time : Int
  lim : Limits
  /-- calls that wait for the lock of a peer -/
  waiting : List (Id × Op L)
  /-- peers whose lock is taken, with the time the holder read -/
  busy : OMap Id (Int × Op L)
  task : Option Task

/-- A new manager (enclave/peers/peers.cc:490-494), with the limits of its enclave. -/
def start (L : Lib) (lim : Limits) : World L :=
  { ready := none, peers := .empty, time := 0, lim := lim, waiting := [], busy := .empty, task := none }

/-- What the rest of the enclave and the host see. -/
inductive Eff
  | sent (to_ : Id) (w : Wire)
  | got (frm : Id) (m : Msg)
  | ret (id : Id) (e : Option Err)

inductive Ev (L : Lib)
  | init (priv : L.Priv) (att : Bytes)
  | connectToPeer (id : Id)
  | maybeConnectToPeer (id : Id)
  | resetPeer (id : Id)
  | sendToPeer (id : Id) (msg : Msg)
  | refresh (att : Bytes)
  | peerMessage (id : Bytes) (w : Wire)
  | lock (i : Nat)
  | run (id : Id) (rnd : Bytes)
  | setTime (secs timeout : Int)
  | sweepStart
  | sweepNext
  | setLim (u : Limits)
  | minStart
  | minCheck
  | minNext

/-- `PeerManager::CreatePeer` (enclave/peers/peers.cc:572-581). -/
def createPeer (w : World L) (id : Id) : World L :=
  match w.peers.find id with
  | some _ => w
  | none => { w with peers := w.peers.insert id .new }

/-- A thread may wait for the lock of `id`. -/
def await (w : World L) (id : Id) (op : Op L) : World L := { w with waiting := w.waiting ++ [(id, op)] }

/-- The manager's lock is held by a sweep, so `CreatePeer` waits. -/
def sweeping (w : World L) : Bool :=
  match w.task with
  | some (.timeSweep ..) => true
  | some (.minSweep ..) => true
  | _ => false

/-- Keys of the map, in the order of iteration. -/
def ids (w : World L) : List Id := w.peers.list.map (·.1)

/-- The effects of a call on peer `id`. -/
def effects (id : Id) (r : Ret L) : List Eff :=
  r.sent.map (.sent id) ++ (match r.decoded with | some m => [.got id m] | none => []) ++ [.ret id r.err]

/-- One event. An event that cannot happen changes nothing.

* `init`: `PeerManager::Init` (506-533).
* `connectToPeer`, `maybeConnectToPeer`, `resetPeer`, `sendToPeer` (611-670): up to the call of the peer.
* `refresh`: `RefreshAttestation` (543-570) with new evidence `att`; simplified: it sends to every peer, where the code skips
  peers that are not connected and for which `Send` would only return an error.
* `peerMessage`: `Core::HandlePeerMessage` (enclave/core/core.cc:1089-1098), whose `CHECK` comes first, and
  `PeerManager::RecvFromPeer` (672-698), up to the call of the peer.
* `lock i`: the `i`th waiting thread takes the lock of its peer. It reads the clock (172, 308, 440) right after; the clock
  may change before `run`.
* `run`: the holder of the lock does its work, checks the minimums now in force, and releases the lock.
* `setTime`: `SetPeerAttestationTimestamp` (720-725) up to the lock of the manager. It is called with core's Raft lock
  (enclave/core/core.cc:947-966), so never twice at a time.
* `sweepStart`, `sweepNext`: its loop (727-734).
* `setLim`: `Minimums::UpdateLimits`, called in three places of core.
* `minStart`, `minCheck`, `minNext`: `MinimumsUpdated` (737-744), called with core's Raft lock (enclave/core/core.cc:644,
  1868): `CheckMinimums` and `Disconnect` take the lock of the peer separately. -/
def step (L : Lib) (w : World L) : Ev L → Out (World L × List Eff)
  | .init priv att =>
    match w.ready with
    | some _ => .ok (w, [])
    | none => .ok ({ w with ready := some (priv, att) }, [])
  | .connectToPeer id =>
    match w.ready with
    | none => .ok (w, [.ret id (some .noInit)])
    | some (priv, att) => if sweeping w then .ok (w, []) else .ok (await (createPeer w id) id (.connect priv att), [])
  | .maybeConnectToPeer id =>
    match w.ready with
    | none => .ok (w, [.ret id (some .noInit)])
    | some (priv, att) => if sweeping w then .ok (w, []) else .ok (await (createPeer w id) id (.maybeConnect priv att), [])
  | .resetPeer id =>
    match w.ready with
    | none => .ok (w, [.ret id (some .noInit)])
    | some _ =>
      match w.peers.find id with
      | none => .ok (w, [.sent id .rst, .ret id (some .resetMissingPeer)])
      | some _ => .ok (await w id .disconnect, [])
  | .sendToPeer id msg =>
    match w.ready with
    | none => .ok (w, [.ret id (some .noInit)])
    | some _ =>
      if msg = .connected then .ok (w, [.ret id (some .sendConnect)])
      else match w.peers.find id with
        | none => .ok (w, [.sent id .rst, .ret id (some .sendBeforeConnect)])
        | some _ => .ok (await w id (.send msg), [])
  | .refresh att =>
    match w.ready with
    | none => .ok (w, [])
    | some (priv, _) =>
      .ok ({ w with ready := some (priv, att), waiting := w.waiting ++ (ids w).map (fun id => (id, .send (.update att))) }, [])
  | .peerMessage id msg =>
    if id.length ≠ 32 then .abort
    else match w.ready with
      | none => .ok (w, [.ret id (some .noInit)])
      | some (priv, att) =>
        match msg with
        | .syn b => if sweeping w then .ok (w, []) else .ok (await (createPeer w id) id (.accept priv att b), [])
        | .rst =>
          match w.peers.find id with
          | none => .ok (w, [.ret id (some .recvBeforeConnect)])
          | some _ => .ok (await w id (.recv .rst), [])
        | msg =>
          match w.peers.find id with
          | none => .ok (w, [.sent id .rst, .ret id (some .recvBeforeConnect)])
          | some _ => .ok (await w id (.recv msg), [])
  | .lock i =>
    match w.waiting[i]? with
    | none => .ok (w, [])
    | some (id, op) =>
      match w.busy.find id with
      | some _ => .ok (w, [])
      | none => .ok ({ w with waiting := w.waiting.eraseIdx i, busy := w.busy.insert id (w.time, op) }, [])
  | .run id rnd =>
    match w.busy.find id, w.peers.find id with
    | some (ts, op), some p => do
      let r ← exec L id ts w.lim rnd p op
      pure ({ w with peers := w.peers.insert id r.peer, busy := w.busy.erase id }, effects id r)
    | _, _ => .ok (w, [])
  | .setTime secs timeout =>
    match w.task with
    | some _ => .ok (w, [])
    | none =>
      if w.time = secs then .ok (w, [])
      else .ok ({ w with time := secs, task := some (.timeWait secs timeout) }, [])
  | .sweepStart =>
    match w.task with
    | some (.timeWait secs timeout) => .ok ({ w with task := some (.timeSweep secs timeout (ids w)) }, [])
    | _ => .ok (w, [])
  | .sweepNext =>
    match w.task with
    | some (.timeSweep _ _ []) => .ok ({ w with task := none }, [])
    | some (.timeSweep secs timeout (id :: todo)) =>
      match w.busy.find id, w.peers.find id with
      | none, some p => do
        let (r, _) ← maybeDisconnect secs timeout p
        pure ({ w with peers := w.peers.insert id r.peer, task := some (.timeSweep secs timeout todo) },
          r.sent.map (.sent id))
      | _, _ => .ok (w, [])
    | _ => .ok (w, [])
  | .setLim u =>
    match Minimums.updateLimits w.lim u with
    | .error _ => .ok (w, [])
    | .ok lim => .ok ({ w with lim := lim }, [])
  | .minStart =>
    match w.task with
    | some _ => .ok (w, [])
    | none => .ok ({ w with task := some (.minSweep (ids w) false) }, [])
  | .minCheck =>
    match w.task with
    | some (.minSweep [] _) => .ok ({ w with task := none }, [])
    | some (.minSweep (id :: todo) false) =>
      match w.busy.find id, w.peers.find id with
      | none, some p =>
        match checkMinimums w.lim p with
        | some _ => .ok ({ w with task := some (.minSweep (id :: todo) true) }, [])
        | none => .ok ({ w with task := some (.minSweep todo false) }, [])
      | _, _ => .ok (w, [])
    | _ => .ok (w, [])
  | .minNext =>
    match w.task with
    | some (.minSweep (id :: todo) true) =>
      match w.busy.find id, w.peers.find id with
      | none, some p =>
        .ok ({ w with peers := w.peers.insert id p.drop, task := some (.minSweep todo false) }, [.sent id .rst])
      | _, _ => .ok (w, [])
    | _ => .ok (w, [])

/-- A run of events. -/
def run (L : Lib) (w : World L) : List (Ev L) → Out (World L × List Eff)
  | [] => .ok (w, [])
  | e :: es => do
    let (w, a) ← step L w e
    let (w, b) ← run L w es
    pure (w, a ++ b)

end Svr.Peers
