import Verif.Bytes
import Verif.OMap
import Verif.Minimums
import Verif.Noise

/-!
# Model of `enclave/client/client.cc` and of the parts of `enclave/core/core.cc` that use it: sessions with clients

The libraries (Noise handshakes, the AEAD, attestation, protobuf) and the type of database are the fields of `Lib`; nothing
is assumed of them here. Threads interleave: a call from the host or from Raft is a `Task`, and each step of a task is what it
does from one lock to the next. Client objects live in a heap and are found by a handle, the number of the call of the
constructor; the id of a client is that number in 64 bits. Metrics and log lines are left out.
-/

namespace Svr.Clients

open Minimums (Limits)

/-- The errors of this code. `startup`, `parse`, `state`, `validate` and `raft` stand for errors of functions called. -/
inductive Err
  | startup | publicKey | evidence | clientNotFound | handshakeState | readHandshake | writeHandshake | split | handshakeHash
  | decryptState | decrypt | decryptParse | encryptState | encryptSerialize | encrypt
  | state | logFrom | validate | serializeLog | raft
  | cancelled | invalid | alreadyClosed | responseFromEffect
deriving DecidableEq

/-- `NOISE_ACTION_...` -/
inductive Action | write | read | split | other
deriving DecidableEq

/-- `attestation::AttestationData` as `GetAttestation` fills it (enclave/client/client.cc:251-266): the public key, the
configuration of the group and the minimum limits. -/
structure AttData where
  pub : Bytes
  config : Bytes
  limits : Limits

/-- The libraries and the database type. `Dh` is a `NoiseDHState`, `Hs` a `NoiseHandshakeState`, `Key` the key of a
`NoiseCipherState`, `Cs` a `DB::ClientState`. -/
structure Lib where
  Dh : Type
  Hs : Type
  Key : Type
  Cs : Type
  Req : Type
  Resp : Type
  Log : Type
  Effect : Type
  /-- `NewDHState` (enclave/client/client.cc:194-207), with its randomness; `none` is the null pointer -/
  newDh : Bytes → Option Dh
  /-- `noise_dhstate_get_public_key` -/
  pub : Dh → Option Bytes
  /-- `env::environment->Evidence`, with what else it depends on -/
  evidence : AttData → Bytes → Option Bytes
  /-- the three calls that set up a handshake (enclave/client/client.cc:63-74) -/
  start : Dh → Option Hs
  /-- `noise_handshakestate_get_action` -/
  action : Hs → Action
  /-- `noise_handshakestate_read_message`: the state after, and whether it succeeded -/
  read : Hs → Bytes → Hs × Bool
  /-- `noise_handshakestate_write_message`, with its randomness -/
  write : Hs → Bytes → Hs × Option Bytes
  /-- `noise_handshakestate_split`: the keys to send and to receive -/
  split : Hs → Hs × Option (Key × Key)
  /-- `noise_handshakestate_get_handshake_hash` -/
  hash : Hs → Option Bytes
  aead : Key → Noise.Aead
  /-- `NewClientState` -/
  newCs : Bytes → Cs
  /-- `set_handshake_hash` -/
  setHash : Cs → Bytes → Cs
  /-- `RequestPB` and `ParseFromString` -/
  parseReq : Bytes → Option Req
  /-- `ResponseFromRequest`: `ok none` is the null pointer -/
  respondReq : Cs → Req → Cs × Except Unit (Option Resp)
  /-- `LogFromRequest`, with its randomness -/
  logFrom : Cs → Req → Bytes → Option Log
  /-- `ValidateClientLog`: whether it returns `OK` -/
  validate : Log → Bool
  serLog : Log → Option Bytes
  /-- `ResponseFromEffect`: `none` is the null pointer -/
  respondEff : Cs → Effect → Cs × Option Resp
  serResp : Resp → Option Bytes

structure Cipher (L : Lib) where
  key : L.Key
  nonce : Nat

/-- `Client` (enclave/client/client.h:54-61); `start` is `hs_start_`: public key and evidence, which is empty until the first
refresh. Its id is the handle in 64 bits, and `pq_` is part of `L.start`. -/
structure Client (L : Lib) where
  start : Bytes × Option Bytes
  hs : Option L.Hs
  tx : Option (Cipher L)
  rx : Option (Cipher L)
  cs : L.Cs

variable {L : Lib}

/-- `NOISE_VERIFY_LENGTH_WITH_AD` (enclave/client/client.cc:24). -/
def withAd : Bool := false

/-- `Client::Init` (enclave/client/client.cc:59-86), for a client state of `auth`. -/
def init (L : Lib) (auth : Bytes) (dh : L.Dh) (att : Option Bytes) : Except Err (Client L) :=
  match L.start dh with
  | none => .error .startup
  | some hs => match L.pub dh with
    | none => .error .publicKey
    | some pub => .ok { start := (pub, att), hs := some hs, tx := none, rx := none, cs := L.newCs auth }

/-- `Client::FinishHandshake` (enclave/client/client.cc:88-127). -/
def finishHandshake (L : Lib) (data rnd : Bytes) (c : Client L) : Client L × Except Err Bytes :=
  match c.hs, c.tx, c.rx with
  | some h, none, none =>
    if L.action h ≠ .read then (c, .error .handshakeState)
    else match L.read h data with
      | (h, false) => ({ c with hs := some h }, .error .readHandshake)
      | (h, true) =>
        if L.action h ≠ .write then ({ c with hs := some h }, .error .handshakeState)
        else match L.write h rnd with
          | (h, none) => ({ c with hs := some h }, .error .writeHandshake)
          | (h, some out) =>
            if L.action h ≠ .split then ({ c with hs := some h }, .error .handshakeState)
            else match L.split h with
              | (h, none) => ({ c with hs := some h }, .error .split)
              | (h, some (tx, rx)) => match L.hash h with
                | none => ({ c with hs := some h }, .error .handshakeHash)
                | some hh => ({ c with hs := none, tx := some ⟨tx, 0⟩, rx := some ⟨rx, 0⟩, cs := L.setHash c.cs hh }, .ok out)
  | _, _, _ => (c, .error .handshakeState)

/-- `Client::DecryptRequest` (enclave/client/client.cc:129-143). -/
def decryptRequest (L : Lib) (data : Bytes) (c : Client L) : Out (Client L × Except Err L.Req) :=
  match c.hs, c.tx, c.rx with
  | none, some _, some r => do
    match ← Noise.decrypt (L.aead r.key) Noise.maxMessage withAd r.nonce data with
    | (n, none) => pure ({ c with rx := some ⟨r.key, n⟩ }, .error .decrypt)
    | (n, some pt) =>
      let c := { c with rx := some ⟨r.key, n⟩ }
      match L.parseReq pt with
      | none => pure (c, .error .decryptParse)
      | some req => pure (c, .ok req)
  | _, _, _ => .ok (c, .error .decryptState)

/-- What the host and the rest of the enclave see. `sealed` is the call of `noise::Encrypt` of client object `h`. -/
inductive Reply
  /-- `ReplyWithError` with an error -/
  | err (e : Err)
  /-- `ReplyWithError` with `OK` -/
  | ok
  /-- `new_client_reply` -/
  | newClient (id : Nat) (pub : Bytes) (att : Option Bytes)
  /-- `existing_client_reply` with the end of a handshake -/
  | hello (data : Bytes)
  /-- `existing_client_reply` with an encrypted response -/
  | data (data : Bytes)

inductive Eff (L : Lib)
  | reply (tx : Nat) (r : Reply)
  | sealed (h : Nat) (key : L.Key) (nonce : Nat) (plain : Bytes)
  /-- `RaftWriteLogTransaction` took the log entry -/
  | propose (tx : Nat) (id : Nat) (data : Bytes)

/-- `Client::EncryptResponse` (enclave/client/client.cc:145-156), of object `h`. -/
def encryptResponse (L : Lib) (h : Nat) (resp : L.Resp) (c : Client L) : Out (Client L × List (Eff L) × Except Err Bytes) :=
  match c.hs, c.tx, c.rx with
  | none, some t, some _ => match L.serResp resp with
    | none => .ok (c, [], .error .encryptSerialize)
    | some p => do
      match ← Noise.encrypt (L.aead t.key) Noise.maxMessage withAd t.nonce p with
      | (n, none) => pure ({ c with tx := some ⟨t.key, n⟩ }, [.sealed h t.key t.nonce p], .error .encrypt)
      | (n, some ct) => pure ({ c with tx := some ⟨t.key, n⟩ }, [.sealed h t.key t.nonce p], .ok ct)
  | _, _, _ => .ok (c, [], .error .encryptState)

/-- How far a thread is. Those with `h` hold a `shared_ptr` to that object, except the first three. -/
inductive Task (L : Lib)
  /-- `NewClient` (158-174) before `ClientArgs`; the constructor took number `h` -/
  | newArgs (tx h : Nat) (auth : Bytes)
  /-- `NewClient` with what `ClientArgs` returned -/
  | newInit (tx h : Nat) (auth : Bytes) (dh : L.Dh) (att : Option Bytes)
  /-- `HandleNewClient` with the plain pointer it was returned (enclave/core/core.cc:380-386) -/
  | newReply (tx h : Nat)
  /-- `HandleExistingClient` (enclave/core/core.cc:390-441) -/
  | existing (tx id : Nat) (data : Bytes)
  | handshaking (tx id h : Nat) (data : Bytes)
  | finish (tx id h : Nat) (data : Bytes)
  | decrypt (tx id h : Nat) (data : Bytes)
  | respond (tx id h : Nat) (req : L.Req)
  | encrypt (tx id h : Nat) (resp : L.Resp)
  | log (tx id h : Nat) (req : L.Req)
  /-- `RaftWriteLogTransaction` -/
  | write (tx id h : Nat) (data : Bytes)
  /-- after an error: `RemoveClient` and `ReplyWithError` (enclave/core/core.cc:232-235, 1672-1674) -/
  | drop (tx id : Nat) (e : Err)
  /-- `kCloseClient` (enclave/core/core.cc:237-241) -/
  | close (tx id : Nat)
  /-- the callback of `ClientLogTransaction` (enclave/core/core.cc:1619-1676) -/
  | done (tx id : Nat) (res : Except Err (Option L.Effect))
  | effect (tx id h : Nat) (e : L.Effect)
  | encryptEff (tx id h : Nat) (resp : L.Resp)
  /-- `RefreshAttestation` (228-249) with the key it read -/
  | attest (dh : L.Dh) (config : Bytes) (limits : Limits)
  /-- `RefreshAttestation` and `RotateKeyAndRefreshAttestation` (209-226) before they take the lock -/
  | store (dh : L.Dh) (att : Bytes)

/-- The object a thread holds a `shared_ptr` to. -/
def Task.holds : Task L → Option Nat
  | .handshaking _ _ h _ => some h
  | .finish _ _ h _ => some h
  | .decrypt _ _ h _ => some h
  | .respond _ _ h _ => some h
  | .encrypt _ _ h _ => some h
  | .log _ _ h _ => some h
  | .write _ _ h _ => some h
  | .effect _ _ h _ => some h
  | .encryptEff _ _ h _ => some h
  | _ => none

/-- `ClientManager` (enclave/client/client.h:84-88), the objects, `id_gen`, and the callbacks that Raft has not yet called. -/
structure World (L : Lib) where
  dh : L.Dh
  att : Option Bytes
  clients : OMap Nat Nat
  objs : OMap Nat (Client L)
  idGen : Nat
  pending : List (Nat × Nat)
  tasks : OMap Nat (Task L)
  nextTask : Nat

/-- After `Core::Init` (enclave/core/core.cc:132-161), which refuses a key that is null. -/
def begin (L : Lib) (dh : L.Dh) : World L :=
  { dh := dh, att := none, clients := .empty, objs := .empty, idGen := 1, pending := [], tasks := .empty, nextTask := 0 }

/-- `id_`, an unsigned number of 64 bits. -/
def idOf (h : Nat) : Nat := h % 2 ^ 64

/-- The object still exists: the map or a thread has a `shared_ptr` to it. -/
def alive (w : World L) (h : Nat) : Bool :=
  w.clients.list.any (fun x => x.2 = h) || w.tasks.list.any (fun x => x.2.holds = some h)

/-- What a thread does in a step: the world, where it goes on (`none` if it is finished), and effects. -/
abbrev Ret (L : Lib) := World L × Option (Task L) × List (Eff L)

/-- A step of a thread that is at `t`. `rnd` is randomness and other input from outside; `raft` is what
`RaftWriteLogTransaction` returns. -/
def stepTask (L : Lib) (w : World L) (rnd : Bytes) (raft : Bool) : Task L → Out (Ret L)
  | .newArgs tx h auth => .ok (w, some (.newInit tx h auth w.dh w.att), [])
  | .newInit tx h auth dh att =>
    match init L auth dh att with
    | .error e => .ok (w, none, [.reply tx (.err e)])
    | .ok c => .ok ({ w with objs := w.objs.insert h c, clients := w.clients.insert (idOf h) h }, some (.newReply tx h), [])
  | .newReply tx h =>
    if alive w h then match w.objs.find h with
      | none => .ub
      | some c => .ok (w, none, [.reply tx (.newClient (idOf h) c.start.1 c.start.2)])
    else .ub
  | .existing tx id data =>
    match w.clients.find id with
    | none => .ok (w, some (.drop tx id .clientNotFound), [])
    | some h => .ok (w, some (.handshaking tx id h data), [])
  | .handshaking tx id h data =>
    match w.objs.find h with
    | none => .ub
    | some c => .ok (w, some (if c.hs.isSome then .finish tx id h data else .decrypt tx id h data), [])
  | .finish tx id h data =>
    match w.objs.find h with
    | none => .ub
    | some c => match finishHandshake L data rnd c with
      | (c, .error e) => .ok ({ w with objs := w.objs.insert h c }, some (.drop tx id e), [])
      | (c, .ok out) => .ok ({ w with objs := w.objs.insert h c }, none, [.reply tx (.hello out)])
  | .decrypt tx id h data =>
    match w.objs.find h with
    | none => .ub
    | some c => do match ← decryptRequest L data c with
      | (c, .error e) => pure ({ w with objs := w.objs.insert h c }, some (.drop tx id e), [])
      | (c, .ok req) => pure ({ w with objs := w.objs.insert h c }, some (.respond tx id h req), [])
  | .respond tx id h req =>
    match w.objs.find h with
    | none => .ub
    | some c => match L.respondReq c.cs req with
      | (cs, r) =>
        let w := { w with objs := w.objs.insert h { c with cs := cs } }
        match r with
        | .error _ => .ok (w, some (.drop tx id .state), [])
        | .ok none => .ok (w, some (.log tx id h req), [])
        | .ok (some resp) => .ok (w, some (.encrypt tx id h resp), [])
  | .encrypt tx id h resp =>
    match w.objs.find h with
    | none => .ub
    | some c => do match ← encryptResponse L h resp c with
      | (c, es, .error e) => pure ({ w with objs := w.objs.insert h c }, some (.drop tx id e), es)
      | (c, es, .ok ct) => pure ({ w with objs := w.objs.insert h c }, none, es ++ [.reply tx (.data ct)])
  | .log tx id h req =>
    match w.objs.find h with
    | none => .ub
    | some c => match L.logFrom c.cs req rnd with
      | none => .ok (w, some (.drop tx id .logFrom), [])
      | some log =>
        if L.validate log = false then .ok (w, some (.drop tx id .validate), [])
        else match L.serLog log with
          | none => .ok (w, some (.drop tx id .serializeLog), [])
          | some data => .ok (w, some (.write tx id h data), [])
  | .write tx id _ data =>
    if raft then .ok ({ w with pending := w.pending ++ [(tx, id)] }, none, [.propose tx id data])
    else .ok (w, some (.drop tx id .raft), [])
  | .drop tx id e => .ok ({ w with clients := w.clients.erase id }, none, [.reply tx (.err e)])
  | .close tx id => .ok ({ w with clients := w.clients.erase id }, none, [.reply tx .ok])
  | .done tx id res =>
    match res with
    | .error e => .ok (w, some (.drop tx id e), [])
    | .ok none => .ok (w, some (.drop tx id .invalid), [])
    | .ok (some e) => match w.clients.find id with
      | none => .ok (w, some (.drop tx id .alreadyClosed), [])
      | some h => .ok (w, some (.effect tx id h e), [])
  | .effect tx id h e =>
    match w.objs.find h with
    | none => .ub
    | some c => match L.respondEff c.cs e with
      | (cs, r) =>
        let w := { w with objs := w.objs.insert h { c with cs := cs } }
        match r with
        | none => .ok (w, some (.drop tx id .responseFromEffect), [])
        | some resp => .ok (w, some (.encryptEff tx id h resp), [])
  | .encryptEff tx id h resp =>
    match w.objs.find h with
    | none => .ub
    | some c => do match ← encryptResponse L h resp c with
      | (c, es, .error e) => pure ({ w with objs := w.objs.insert h c }, some (.drop tx id e), es)
      | (c, es, .ok ct) => pure ({ w with objs := w.objs.insert h c }, none, es ++ [.reply tx (.data ct)])
  | .attest dh config limits =>
    match L.pub dh with
    | none => .ok (w, none, [])
    | some pub => match L.evidence ⟨pub, config, limits⟩ rnd with
      | none => .ok (w, none, [])
      | some att => .ok (w, some (.store dh att), [])
  | .store dh att => .ok ({ w with dh := dh, att := some att }, none, [])

inductive Ev (L : Lib)
  /-- `kNewClient` (enclave/core/core.cc:224-227) -/
  | newClient (tx : Nat) (auth : Bytes)
  /-- `kExistingClient` (enclave/core/core.cc:228-236) -/
  | existing (tx id : Nat) (data : Bytes)
  | close (tx id : Nat)
  /-- `RotateKeyAndRefreshAttestation`, with the configuration and the limits its caller read -/
  | rotate (rnd config : Bytes) (limits : Limits)
  /-- `RefreshAttestation` -/
  | refresh (config : Bytes) (limits : Limits)
  /-- Raft, or the transaction that forwards to the leader, calls the `i`th callback -/
  | complete (i : Nat) (res : Except Err (Option L.Effect))
  /-- a step of thread `i` -/
  | run (i : Nat) (rnd : Bytes) (raft : Bool)

def spawn (w : World L) (t : Task L) : World L := { w with tasks := w.tasks.insert w.nextTask t, nextTask := w.nextTask + 1 }

/-- One event. An event that cannot happen changes nothing.

* `rotate`: `NewDHState` and the rest are one thread; a key that is null has no public key, so `GetAttestation` fails.
* `refresh`: `ClientArgs` comes first. Its `CHECK`s on the copy of a key are left out: they fail only if memory is short.
* `complete`: each callback is called at most once (C37, C38). -/
def step (L : Lib) (w : World L) : Ev L → Out (World L × List (Eff L))
  | .newClient tx auth => .ok (spawn { w with idGen := w.idGen + 1 } (.newArgs tx w.idGen auth), [])
  | .existing tx id data => .ok (spawn w (.existing tx id data), [])
  | .close tx id => .ok (spawn w (.close tx id), [])
  | .rotate rnd config limits => match L.newDh rnd with
    | none => .ok (w, [])
    | some dh => .ok (spawn w (.attest dh config limits), [])
  | .refresh config limits => .ok (spawn w (.attest w.dh config limits), [])
  | .complete i res => match w.pending[i]? with
    | none => .ok (w, [])
    | some (tx, id) => .ok (spawn { w with pending := w.pending.eraseIdx i } (.done tx id res), [])
  | .run i rnd raft => match w.tasks.find i with
    | none => .ok (w, [])
    | some t => do
      let (w, next, es) ← stepTask L w rnd raft t
      match next with
      | none => pure ({ w with tasks := w.tasks.erase i }, es)
      | some t => pure ({ w with tasks := w.tasks.insert i t }, es)

def run (L : Lib) (w : World L) : List (Ev L) → Out (World L × List (Eff L))
  | [] => .ok (w, [])
  | e :: evs => do
    let (w, es) ← step L w e
    let (w, es') ← run L w evs
    pure (w, es ++ es')

end Svr.Clients
