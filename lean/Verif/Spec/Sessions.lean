import Verif.Clients

/-!
# Specification: whose session, whose key, whose row

It uses the events, the effects and the libraries, and none of the functions of `client.cc`.
-/

namespace Svr.Clients

variable {L : Lib}

/-- The authenticated ids the host gave for new clients, in the order of the calls: the client with number `h` (from 1) has
the `h - 1`st. -/
def auths : List (Ev L) → List Bytes
  | [] => []
  | .newClient _ auth :: t => auth :: auths t
  | _ :: t => auths t

/-- The host passed data of client `id` to the enclave, as request `tx`. -/
def Asked (evs : List (Ev L)) (tx id : Nat) : Prop := ∃ d, Ev.existing tx id d ∈ evs

/-- `att` is evidence of this enclave for the public key `pub`. -/
def Vouches (L : Lib) (pub att : Bytes) : Prop := ∃ config limits rnd, L.evidence ⟨pub, config, limits⟩ rnd = some att

/-- A handshake that began with the key pair `dh`. -/
inductive HsFrom (L : Lib) (dh : L.Dh) : L.Hs → Prop
  | start {h} (e : L.start dh = some h) : HsFrom L dh h
  | read {h} (b : Bytes) (e : HsFrom L dh h) : HsFrom L dh (L.read h b).1
  | write {h} (rnd : Bytes) (e : HsFrom L dh h) : HsFrom L dh (L.write h rnd).1
  | split {h} (e : HsFrom L dh h) : HsFrom L dh (L.split h).1

/-- The keys to send and to receive of a session that began with the key pair `dh`, and the last message of its handshake. -/
def KeysFrom (L : Lib) (dh : L.Dh) (tx rx : L.Key) (out : Bytes) : Prop :=
  ∃ h rnd, HsFrom L dh h ∧ (L.write h rnd).2 = some out ∧ (L.split (L.write h rnd).1).2 = some (tx, rx)

/-- Client states have the id they were made for, and only make log entries for it. -/
structure Owned (L : Lib) (auth : L.Cs → Bytes) (key : L.Log → Bytes) : Prop where
  new : ∀ a, auth (L.newCs a) = a
  setHash : ∀ c h, auth (L.setHash c h) = auth c
  respondReq : ∀ c r, auth (L.respondReq c r).1 = auth c
  respondEff : ∀ c e, auth (L.respondEff c e).1 = auth c
  log : ∀ c r rnd l, L.logFrom c r rnd = some l → key l = auth c

/-- The ciphers are AEADs. -/
def Sane (L : Lib) : Prop := ∀ k, (L.aead k).Lawful ∧ 0 < (L.aead k).mac ∧ (L.aead k).mac < Noise.maxMessage

/-- The ids the host has been told of, in order. -/
def told : List (Eff L) → List Nat
  | [] => []
  | .reply _ (.newClient id _ _) :: t => id :: told t
  | _ :: t => told t

/-- The id an event of the host names. -/
def Ev.names : Ev L → Option Nat
  | .existing _ id _ => some id
  | .close _ id => some id
  | _ => none

/-- A host that passes on, and closes, only ids that it has been told of before. -/
def Polite (L : Lib) (dh : L.Dh) (evs : List (Ev L)) : Prop :=
  ∀ pre e post, evs = pre ++ e :: post → ∀ id, e.names = some id → ∀ w es, run L (begin L dh) pre = .ok (w, es) → id ∈ told es

/-- The nonces that the AEAD is called with for a message: one for each part, and never the last one. -/
def usedNonces (L : Lib) (k : L.Key) (n : Nat) (p : Bytes) : List Nat :=
  (List.range' n (Noise.parts (Noise.maxMessage - (L.aead k).mac) p).length).filter (· < Noise.lastNonce)

end Svr.Clients
