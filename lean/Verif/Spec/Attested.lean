import Verif.Peers
import Verif.Props.Minimums

/-!
# Specification: who may be connected

What it means that a peer is connected, that a call was given a piece of evidence, and that evidence speaks for a peer. It
uses the data types of the model and the libraries, and none of the functions of `peers.cc`.
-/

namespace Svr.Peers

open Minimums (Limits Values)
open Props.Minimums (value)

variable {L : Lib}

/-- Messages can be sent to and received from the peer. -/
def Ready (p : Peer L) : Prop := p.handshake = none ∧ (∃ c, p.tx = some c) ∧ ∃ c, p.rx = some c

/-- The evidence a call is given. -/
inductive Presents (L : Lib) (p : Peer L) : Op L → Bytes → Prop
  /-- in the first message of a connection -/
  | syn {priv att b ev hs} (h : L.parseConn b = some (ev, hs)) : Presents L p (.accept priv att b) ev
  /-- in the answer, if there is a handshake waiting for it -/
  | synack {h b ev hs} (hh : p.handshake = some h) (h : L.parseConn b = some (ev, hs)) : Presents L p (.recv (.synack b)) ev
  /-- in an encrypted message of a connection -/
  | update {c ct n pt ev} (hc : Ready p) (hx : p.rx = some c)
      (hd : Noise.decrypt (L.aead c.key) Noise.maxMessage true c.nonce ct = .ok (n, some pt))
      (hp : L.parseMsg pt = some (.update ev)) : Presents L p (.recv (.data ct)) ev

/-- Values meet limits: for each key that has a limit and a value, both have the same width and the value is no less. -/
def Meets (lim : Limits) (vals : Values) : Prop :=
  ∀ k b v, lim.find k = some b → vals.find k = some v → v.length = b.length ∧ value b ≤ value v

/-- Evidence is good at time `ts`, is for the key `id` (if shorter, filled up with zeros) and has values `vals` that meet the limits. -/
def Vouched (L : Lib) (id : Id) (ts : Int) (lim : Limits) (ev : Bytes) (vals : Values) : Prop :=
  ∃ pub, L.attest ts ev = some (pub, vals) ∧ (∃ n, id = pub ++ List.replicate n 0) ∧ Meets lim vals

/-- A handshake with `id` as the other side's static key that is complete, and its keys to send and to receive. -/
inductive Shook (L : Lib) (id : Id) : L.Key → L.Key → Prop
  /-- this enclave began -/
  | began {priv rnd h0 h1 out b h2 k1 k2} (hn : L.new .initiator priv id = .ok h0) (hw : L.write h0 rnd = some (h1, out))
      (hr : L.read h1 b = some h2) (hs : L.split h2 = some (k1, k2)) : Shook L id k1 k2
  /-- the other side began -/
  | joined {priv rnd h0 h1 out b h2 k1 k2} (hn : L.new .responder priv id = .ok h0) (hr : L.read h0 b = some h1)
      (hw : L.write h1 rnd = some (h2, out)) (hs : L.split h2 = some (k1, k2)) : Shook L id k1 k2

/-- A key after some number of rekeyings. -/
inductive Rekeyed (L : Lib) : L.Key → L.Key → Prop
  | refl (k) : Rekeyed L k k
  | step {k k'} (h : Rekeyed L k k') : Rekeyed L k (L.rekey k')

end Svr.Peers
