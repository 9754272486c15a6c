import Verif.Wire.ClientProof
import Verif.Wire.Reply
import Verif.Minimums

/-!
# The wire format of what enclaves send each other

`EnclaveToEnclaveMessage` and what it contains (enclave/proto/e2e.proto:23-83, 157-179), as `Peer::Send` serializes it (enclave/peers/peers.cc:82) and
`Peer::Recv` parses it (enclave/peers/peers.cc:142). Database rows inside of a push are bytes here (`Wire/Client.lean` has their format).

The booleans of the oneofs are only ever set to true, and nobody reads their values. The keys of a protobuf map of type `string` must be UTF-8 to be
parsed: `utf8` says which bytes are. In which order the entries of a map are written is up to the library: `ord` is that order.
-/

namespace Svr.Wire

open Svr.Raft Svr.Raft.Node
open Svr.Minimums (Limits)

/-- `LogLocation` (enclave/proto/raft.proto:78-82). -/
structure Loc where
  term : Nat := 0
  idx : Nat := 0
  hash : Bytes := []
deriving DecidableEq

/-- `RaftGroupConfig` (shared/proto/enclaveconfig.proto:60-85). -/
structure GroupConf where
  gid : UInt64 := 0
  minV : UInt32 := 0
  maxV : UInt32 := 0
  super : UInt32 := 0
  db : Nat := 0
  timeout : UInt32 := 0
  simulated : Bool := false
deriving DecidableEq

/-- `ReplicateStatePush` (enclave/proto/e2e.proto:161-179). -/
structure PushW where
  id : Nat := 0
  seq : Nat := 0
  first : Nat := 0
  entries : List Entry := []
  toEnd : Bool := false
  rows : List Bytes := []
  mem : Option (List (Bytes × Bool)) := none
  lim : Option Limits := none

/-- `GetRaftResponse` (enclave/proto/e2e.proto:79-83). -/
structure RaftInfo where
  conf : Option GroupConf := none
  group : Option (List (Bytes × Bool)) := none
  lim : Option Limits := none

/-- The oneof of `TransactionRequest` (enclave/proto/e2e.proto:53-66). -/
inductive Asked
  | unset | ping | getRaft | replicate (group rep : Nat) | push (p : PushW) | membership | voting | write (b : Bytes) | clock (secs : Nat) | removal

/-- The oneof of `TransactionResponse` (enclave/proto/e2e.proto:68-77). -/
inductive Told
  | unset | status (n : Nat) | getRaft (r : RaftInfo) | membership (l : Loc) | voting (l : Loc) | write (l : Loc)

/-- `EnclaveToEnclaveMessage` (enclave/proto/e2e.proto:32-46). -/
inductive E2E
  | unset | connected | raft (m : Msg) | update (evidence endorsements : Bytes) | request (id : Nat) (q : Asked) | response (id : Nat) (r : Told)

variable (ord : Limits → List (Bytes × Bytes)) (utf8 : Bytes → Bool)

/-! ## Serialization -/

def locF (l : Loc) : Fields := fNum 1 l.term ++ fNum 2 l.idx ++ fBytes 3 l.hash

def confF (c : GroupConf) : Fields :=
  fF64 1 c.gid ++ fU32 2 c.minV ++ fU32 3 c.maxV ++ fU32 4 c.super ++ fNum 5 c.db ++ fU32 6 c.timeout ++ fBool 7 c.simulated

/-- An entry of a map has both fields, even if they are empty. -/
def limF (p : Bytes × Bytes) : Nat × Raw := (1, .len (enc [(1, .len p.1), (2, .len p.2)]))

/-- `MinimumLimits` (shared/proto/minimums.proto:10-15). -/
def limitsF (m : Limits) : Fields := (ord m).map limF

/-- A message that is set, in field `f`. -/
def fOpt {α : Type} (f : Nat) (F : α → Fields) : Option α → Fields
  | none => []
  | some x => [(f, .len (enc (F x)))]

def pushF (p : PushW) : Fields :=
  fNum 1 p.id ++ fNum 2 p.seq ++ fNum 3 p.first ++ p.entries.map (fun e => (4, .len (enc (entryF e)))) ++ fBool 5 p.toEnd ++
    p.rows.map (fun r => (6, .len r)) ++ fOpt 7 groupF p.mem ++ fOpt 8 (limitsF ord) p.lim

def infoF (r : RaftInfo) : Fields := fOpt 1 confF r.conf ++ fOpt 2 groupF r.group ++ fOpt 3 (limitsF ord) r.lim

/-- Members of a oneof are written even if they have the default value. -/
def askedF : Asked → Fields
  | .unset => []
  | .ping => [(2, .num 1)]
  | .getRaft => [(3, .num 1)]
  | .replicate g r => [(4, .len (enc (fNum 1 g ++ fNum 2 r)))]
  | .push p => [(5, .len (enc (pushF ord p)))]
  | .membership => [(6, .num 1)]
  | .voting => [(7, .num 1)]
  | .write b => [(8, .len b)]
  | .clock n => [(9, .num n)]
  | .removal => [(10, .num 1)]

def toldF : Told → Fields
  | .unset => []
  | .status n => [(2, .num n)]
  | .getRaft r => [(3, .len (enc (infoF ord r)))]
  | .membership l => [(4, .len (enc (locF l)))]
  | .voting l => [(5, .len (enc (locF l)))]
  | .write l => [(6, .len (enc (locF l)))]

def e2eF : E2E → Fields
  | .unset => []
  | .connected => [(1, .num 1)]
  | .raft m => [(2, .len (enc (msgF m)))]
  | .update v d => [(3, .len (enc (fBytes 1 v ++ fBytes 2 d)))]
  | .request i q => [(4, .len (enc (fNum 1 i ++ askedF ord q)))]
  | .response i r => [(5, .len (enc (fNum 1 i ++ toldF ord r)))]

/-- `SerializeToString` (enclave/peers/peers.cc:82). -/
def encE2E (m : E2E) : Bytes := enc (e2eF ord m)

/-! ## Parsing -/

def locStep (x : Loc) : Nat × Raw → Loc
  | (1, .num n) => { x with term := n }
  | (2, .num n) => { x with idx := n }
  | (3, .len b) => { x with hash := b }
  | _ => x

def confStep (x : GroupConf) : Nat × Raw → GroupConf
  | (1, .fix64 b) => { x with gid := UInt64.ofNat (unle b) }
  | (2, .num n) => { x with minV := UInt32.ofNat n }
  | (3, .num n) => { x with maxV := UInt32.ofNat n }
  | (4, .num n) => { x with super := UInt32.ofNat n }
  | (5, .num n) => { x with db := n % 2 ^ 32 }
  | (6, .num n) => { x with timeout := UInt32.ofNat n }
  | (7, .num n) => { x with simulated := decide (n ≠ 0) }
  | _ => x

def limStep (m : Limits) : Nat × Raw → Option Limits
  | (1, .len b) => (split true b).bind fun fs =>
    if utf8 (getLen 1 [] fs) then some (m.insert (getLen 1 [] fs) (getLen 2 [] fs)) else none
  | _ => some m

def pushStep (x : PushW) : Nat × Raw → Option PushW
  | (1, .num n) => some { x with id := n }
  | (2, .num n) => some { x with seq := n }
  | (3, .num n) => some { x with first := n }
  | (4, .len b) => (split true b).bind fun fs => (fs.foldlM (entryStep true) Entry.dflt).map fun e => { x with entries := x.entries ++ [e] }
  | (5, .num n) => some { x with toEnd := decide (n ≠ 0) }
  | (6, .len b) => some { x with rows := x.rows ++ [b] }
  | (7, .len b) => (split true b).bind fun fs => (fs.foldlM (groupStep true) (x.mem.getD [])).map fun g => { x with mem := some g }
  | (8, .len b) => (split true b).bind fun fs => (fs.foldlM (limStep utf8) (x.lim.getD OMap.empty)).map fun m => { x with lim := some m }
  | _ => some x

def infoStep (x : RaftInfo) : Nat × Raw → Option RaftInfo
  | (1, .len b) => (split true b).map fun fs => { x with conf := some (fs.foldl confStep (x.conf.getD {})) }
  | (2, .len b) => (split true b).bind fun fs => (fs.foldlM (groupStep true) (x.group.getD [])).map fun g => { x with group := some g }
  | (3, .len b) => (split true b).bind fun fs => (fs.foldlM (limStep utf8) (x.lim.getD OMap.empty)).map fun m => { x with lim := some m }
  | _ => some x

def repStep (x : Nat × Nat) : Nat × Raw → Nat × Nat
  | (1, .num n) => (n, x.2)
  | (2, .num n) => (x.1, n)
  | _ => x

/-- A field of a oneof replaces another, and is merged with an earlier value of the same. -/
def askedStep (x : Nat × Asked) : Nat × Raw → Option (Nat × Asked)
  | (1, .num n) => some (n, x.2)
  | (2, .num _) => some (x.1, .ping)
  | (3, .num _) => some (x.1, .getRaft)
  | (4, .len b) => (split true b).map fun fs =>
    let y := fs.foldl repStep (match x.2 with | .replicate g r => (g, r) | _ => (0, 0))
    (x.1, .replicate y.1 y.2)
  | (5, .len b) => (split true b).bind fun fs => (fs.foldlM (pushStep utf8) (match x.2 with | .push p => p | _ => {})).map fun p => (x.1, .push p)
  | (6, .num _) => some (x.1, .membership)
  | (7, .num _) => some (x.1, .voting)
  | (8, .len b) => some (x.1, .write b)
  | (9, .num n) => some (x.1, .clock n)
  | (10, .num _) => some (x.1, .removal)
  | _ => some x

def toldStep (x : Nat × Told) : Nat × Raw → Option (Nat × Told)
  | (1, .num n) => some (n, x.2)
  | (2, .num n) => some (x.1, .status (n % 2 ^ 32))
  | (3, .len b) => (split true b).bind fun fs => (fs.foldlM (infoStep utf8) (match x.2 with | .getRaft r => r | _ => {})).map fun r => (x.1, .getRaft r)
  | (4, .len b) => (split true b).map fun fs => (x.1, .membership (fs.foldl locStep (match x.2 with | .membership l => l | _ => {})))
  | (5, .len b) => (split true b).map fun fs => (x.1, .voting (fs.foldl locStep (match x.2 with | .voting l => l | _ => {})))
  | (6, .len b) => (split true b).map fun fs => (x.1, .write (fs.foldl locStep (match x.2 with | .write l => l | _ => {})))
  | _ => some x

/-- `Attestation` (enclave/proto/e2e.proto:23-26). -/
def attStep (x : Bytes × Bytes) : Nat × Raw → Bytes × Bytes
  | (1, .len b) => (b, x.2)
  | (2, .len b) => (x.1, b)
  | _ => x

def e2eStep (x : E2E) : Nat × Raw → Option E2E
  | (1, .num _) => some .connected
  | (2, .len b) => (split true b).bind fun fs => (fs.foldlM (msgStep true) (match x with | .raft m => m | _ => ⟨0, 0, .notSet⟩)).map .raft
  | (3, .len b) => (split true b).map fun fs =>
    let y := fs.foldl attStep (match x with | .update v d => (v, d) | _ => ([], []))
    .update y.1 y.2
  | (4, .len b) => (split true b).bind fun fs =>
    (fs.foldlM (askedStep utf8) (match x with | .request i q => (i, q) | _ => (0, .unset))).map fun y => .request y.1 y.2
  | (5, .len b) => (split true b).bind fun fs =>
    (fs.foldlM (toldStep utf8) (match x with | .response i r => (i, r) | _ => (0, .unset))).map fun y => .response y.1 y.2
  | _ => some x

/-- `ParseFromString` (enclave/peers/peers.cc:142). -/
def decE2E (b : Bytes) : Option E2E := (split true b).bind fun fs => fs.foldlM (e2eStep utf8) .unset

/-- `ConnectRequest` (enclave/proto/e2e.proto:48-51), with an attestation that is set (enclave/peers/peers.cc:260, 337); `a` is its wire format. -/
def encConn (a hs : Bytes) : Bytes := enc ([(1, .len a)] ++ fBytes 2 hs)

def connStep (x : (Bytes × Bytes) × Bytes) : Nat × Raw → Option ((Bytes × Bytes) × Bytes)
  | (1, .len b) => (split true b).map fun fs => (fs.foldl attStep x.1, x.2)
  | (2, .len b) => some (x.1, b)
  | _ => some x

/-- Evidence, endorsements and handshake in a `ConnectRequest` (enclave/peers/peers.cc:179, 310). -/
def decConn (b : Bytes) : Option ((Bytes × Bytes) × Bytes) := (split true b).bind fun fs => fs.foldlM connStep (([], []), [])

/-! ## What fits its fields -/

def Loc.Ok (l : Loc) : Prop := l.term < 2 ^ 64 ∧ l.idx < 2 ^ 64

/-- The keys are text. -/
def LimOk (m : Option Limits) : Prop := ∀ l, m = some l → ∀ p ∈ l.list, utf8 p.1 = true

def PushW.Ok (p : PushW) : Prop := p.id < 2 ^ 64 ∧ p.seq < 2 ^ 64 ∧ p.first < 2 ^ 64 ∧ (∀ e ∈ p.entries, e.term < 2 ^ 64) ∧ LimOk utf8 p.lim

def Asked.Ok : Asked → Prop
  | .replicate g r => g < 2 ^ 64 ∧ r < 2 ^ 64
  | .push p => p.Ok utf8
  | .clock n => n < 2 ^ 64
  | _ => True

def Told.Ok : Told → Prop
  | .status n => n < 2 ^ 31
  | .getRaft r => (∀ c, r.conf = some c → c.db < 2 ^ 31) ∧ LimOk utf8 r.lim
  | .membership l => l.Ok
  | .voting l => l.Ok
  | .write l => l.Ok
  | .unset => True

end Svr.Wire
