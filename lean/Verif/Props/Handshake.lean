import Verif.Props.PeerWire

/-!
# C100: two enclaves that connect to each other

`Peer::InternalConnect`, `Peer::Accept` and `Peer::FinishConnection` (enclave/peers/peers.cc:167-371) on both sides, with their wire format.
-/

namespace Svr.Props.Handshake

open Svr.Wire Svr.Peers
open Svr.Minimums (Limits Values)
open Props.PeerSession (InStep Arrival sendSeq recvSeq)
open Props.PeerWire (wire sized Fit seen readMsg forCore)
open Props.Peers (Sane)

/-- What is trusted of the Noise library: a handshake of an initiator with `pa` for the key `b` and a responder with `pb` for the key `a`, carried over
without changes, gives both the same two keys, the other way round; its messages fit a Noise message. -/
def Shakes (L : Lib) (pa pb : L.Priv) (a b : Peers.Id) : Prop :=
  ∃ h0 g0, L.new .initiator pa b = .ok h0 ∧ L.action h0 = .write ∧ L.new .responder pb a = .ok g0 ∧ L.action g0 = .read ∧
    ∀ rnd, ∃ h1 m1 g1, L.write h0 rnd = some (h1, m1) ∧ m1.length ≤ 65535 ∧ L.action h1 = .read ∧ L.read g0 m1 = some g1 ∧ L.action g1 = .write ∧
      ∀ rnd', ∃ g2 m2 h2 k1 k2, L.write g1 rnd' = some (g2, m2) ∧ m2.length ≤ 65535 ∧ L.action g2 = .split ∧ L.split g2 = some (k2, k1) ∧
        L.read h1 m2 = some h2 ∧ L.action h2 = .split ∧ L.split h2 = some (k1, k2)

/-- The evidence of an enclave: good at time `ts`, for its key, with values that meet the limits; at most a megabyte. -/
structure Good (L : Lib) (id : Peers.Id) (ts : Int) (lim : Limits) (v d : Bytes) : Prop where
  att : ∃ vals, L.attest ts (enc (fBytes 1 v ++ fBytes 2 d)) = some (id, vals) ∧ Meets lim vals
  size : v.length + d.length ≤ 2 ^ 20

variable {L : Lib} {utf8 : Bytes → Bool}

theorem varintGo_len : ∀ (k n d : Nat), n < 128 ^ (d + 1) → (varintGo k n).length ≤ d + 1
  | 0, n, d, _ => by simp [varintGo]
  | k + 1, n, d, h => by
    rw [varintGo]
    split
    · simp
    · cases d with
      | zero => omega
      | succ d =>
        have := varintGo_len k (n / 128) d (by
          rw [Nat.div_lt_iff_lt_mul (by omega)]
          calc n < 128 ^ (d + 1 + 1) := h
            _ = 128 ^ (d + 1) * 128 := by rw [Nat.pow_succ])
        simp only [List.length_cons]
        omega

theorem len_field {f : Nat} {b : Bytes} (hf : f < 16) (hb : b.length < 2 ^ 28) : (field (f, .len b)).length ≤ b.length + 5 := by
  have h1 : (varint (8 * f + 2)).length ≤ 0 + 1 := varintGo_len _ _ 0 (by omega)
  have h2 : (varint b.length).length ≤ 3 + 1 := varintGo_len _ _ 3 (by omega)
  simp only [field, List.length_append]
  omega

theorem len_fBytes {f : Nat} {b : Bytes} (hf : f < 16) (hb : b.length < 2 ^ 28) : (enc (fBytes f b)).length ≤ b.length + 5 := by
  unfold fBytes
  split
  · simp [enc]
  · have : enc [(f, .len b)] = field (f, .len b) := by simp [enc]
    rw [this]
    exact len_field hf hb

theorem conn_small {v d hs : Bytes} (h : v.length + d.length ≤ 2 ^ 20) (hh : hs.length ≤ 65535) :
    (encConn (enc (fBytes 1 v ++ fBytes 2 d)) hs).length ≤ maxLen := by
  have h1 : (enc (fBytes 1 v)).length ≤ v.length + 5 := len_fBytes (by omega) (by omega)
  have h2 : (enc (fBytes 2 d)).length ≤ d.length + 5 := len_fBytes (by omega) (by omega)
  have h3 : (enc (fBytes 2 hs)).length ≤ hs.length + 5 := len_fBytes (by omega) (by omega)
  have h4 : (enc (fBytes 1 v ++ fBytes 2 d)).length ≤ v.length + d.length + 10 := by rw [enc_append, List.length_append]; omega
  have h5 := len_field (f := 1) (b := enc (fBytes 1 v ++ fBytes 2 d)) (by omega) (by omega)
  have h6 : enc [(1, .len (enc (fBytes 1 v ++ fBytes 2 d)))] = field (1, .len (enc (fBytes 1 v ++ fBytes 2 d))) := by simp [enc]
  rw [encConn, enc_append, List.length_append, h6]
  unfold maxLen
  omega

theorem conn_ser {v d hs : Bytes} (h : v.length + d.length ≤ 2 ^ 20) (hh : hs.length ≤ 65535) :
    (wire utf8 L).serConn (enc (fBytes 1 v ++ fBytes 2 d)) hs = some (encConn (enc (fBytes 1 v ++ fBytes 2 d)) hs) := by
  have := conn_small (v := v) (d := d) h hh
  exact if_pos (by unfold maxLen at this; omega)

theorem conn_parse {v d hs : Bytes} (h : v.length + d.length ≤ 2 ^ 20) (hh : hs.length ≤ 65535) :
    (wire utf8 L).parseConn (encConn (enc (fBytes 1 v ++ fBytes 2 d)) hs) = some (enc (fBytes 1 v ++ fBytes 2 d), hs) := by
  show (decConn _).map _ = _
  rw [decConn_encConn (conn_small h hh)]
  rfl

/-- A request to connect goes out. -/
theorem connects {a b : Peers.Id} {pa pb : L.Priv} (hk : Shakes L pa pb a b) {v d : Bytes} (hs : v.length + d.length ≤ 2 ^ 20) (rnd : Bytes)
    (p : Peer (wire utf8 L)) : ∃ h1 m1, L.action h1 = .read ∧ m1.length ≤ 65535 ∧
      (∃ h0, L.new .initiator pa b = .ok h0 ∧ L.write h0 rnd = some (h1, m1)) ∧
      internalConnect (wire utf8 L) b pa (enc (fBytes 1 v ++ fBytes 2 d)) rnd p =
        .ok ⟨{ p.drop with handshake := some h1 }, [.syn (encConn (enc (fBytes 1 v ++ fBytes 2 d)) m1)], none, none⟩ := by
  obtain ⟨h0, g0, n1, a1, n2, a2, hk⟩ := hk
  obtain ⟨h1, m1, g1, w1, l1, a3, -⟩ := hk rnd
  refine ⟨h1, m1, a3, l1, ⟨h0, n1, w1⟩, ?_⟩
  have n1 : (wire utf8 L).new .initiator pa b = .ok h0 := n1
  have a1 : (wire utf8 L).action h0 = .write := a1
  have w1 : (wire utf8 L).write h0 rnd = some (h1, m1) := w1
  simp only [internalConnect, reset, n1, a1, w1, conn_ser hs l1]
  rfl

/-- A request that arrives is accepted, in any state of the peer. -/
theorem accepts {a b : Peers.Id} {pa pb : L.Priv} (hk : Shakes L pa pb a b) {v d v' d' : Bytes} {ts : Int} {lim : Limits} (hg : Good L a ts lim v d)
    (hs : v'.length + d'.length ≤ 2 ^ 20) (rnd rnd' : Bytes) {h0 h1 : L.Hs} {m1 : Bytes} (hn : L.new .initiator pa b = .ok h0)
    (hw : L.write h0 rnd = some (h1, m1)) (q : Peer (wire utf8 L)) : ∃ m2 h2 k1 k2 vals, m2.length ≤ 65535 ∧
      L.read h1 m2 = some h2 ∧ L.action h2 = .split ∧ L.split h2 = some (k1, k2) ∧
      accept (wire utf8 L) a ts lim pb (enc (fBytes 1 v' ++ fBytes 2 d')) (encConn (enc (fBytes 1 v ++ fBytes 2 d)) m1) rnd' q =
        .ok ⟨⟨none, some ⟨k2, 0⟩, 0, some ⟨k1, 0⟩, 0, ts, vals⟩, [.synack (encConn (enc (fBytes 1 v' ++ fBytes 2 d')) m2)], none, some .connected⟩ := by
  obtain ⟨h0', g0, n1, a1, n2, a2, hk⟩ := hk
  obtain rfl : h0' = h0 := by rw [n1] at hn; cases hn; rfl
  obtain ⟨h1', m1', g1, w1, l1, a3, r1, a4, hk⟩ := hk rnd
  obtain ⟨rfl, rfl⟩ : h1' = h1 ∧ m1' = m1 := by rw [w1] at hw; cases hw; exact ⟨rfl, rfl⟩
  obtain ⟨g2, m2, h2, k1, k2, w2, l2, a5, s2, r2, a6, s1⟩ := hk rnd'
  obtain ⟨⟨vals, e1, e2⟩, e3⟩ := hg
  refine ⟨m2, h2, k1, k2, vals, l2, r2, a6, s1, ?_⟩
  have n2 : (wire utf8 L).new .responder pb a = .ok g0 := n2
  have a2 : (wire utf8 L).action g0 = .read := a2
  have r1 : (wire utf8 L).read g0 m1' = some g1 := r1
  have a4 : (wire utf8 L).action g1 = .write := a4
  have w2 : (wire utf8 L).write g1 rnd' = some (g2, m2) := w2
  have a5 : (wire utf8 L).action g2 = .split := a5
  have s2 : (wire utf8 L).split g2 = some (k2, k1) := s2
  have e1 : (wire utf8 L).attest ts (enc (fBytes 1 v ++ fBytes 2 d)) = some (a, vals) := e1
  have ce : ctEq a a = true := by simp
  simp only [accept, reset, n2, a2, conn_parse e3 l1, e1, ce, checkValues_none.mpr e2, r1, a4, w2, conn_ser hs l2, a5, s2]
  rfl

/-- **C100**, if the requests of the two do not cross: one enclave connects, the other accepts, and the first is given the answer. Both then tell their
cores that they are connected, and are in step in both directions, whatever they were before. -/
theorem C100_connected_partial {a b : Peers.Id} (hb : b.length = 32) {pa pb : L.Priv} (hk : Shakes L pa pb a b) {va da vb db : Bytes} {ta tb : Int}
    {la lb : Limits} (hga : Good L a tb lb va da) (hgb : Good L b ta la vb db) (rnd rnd' : Bytes) (p q : Peer (wire utf8 L)) :
    ∃ syn synack p1 q1 p2,
      internalConnect (wire utf8 L) b pa (enc (fBytes 1 va ++ fBytes 2 da)) rnd p = .ok ⟨p1, [.syn syn], none, none⟩ ∧
      accept (wire utf8 L) a tb lb pb (enc (fBytes 1 vb ++ fBytes 2 db)) syn rnd' q = .ok ⟨q1, [.synack synack], none, some .connected⟩ ∧
      recv (wire utf8 L) b ta la (.synack synack) p1 = .ok ⟨p2, [], none, some .connected⟩ ∧
      InStep p2 q1 ∧ InStep q1 p2 := by
  obtain ⟨h1, m1, a1, l1, ⟨h0, n1, w1⟩, hc⟩ := connects (utf8 := utf8) hk hga.size rnd p
  obtain ⟨m2, h2, k1, k2, vals, l2, r2, a2, s2, hacc⟩ := accepts (utf8 := utf8) hk hga hgb.size rnd rnd' n1 w1 q
  obtain ⟨⟨vals', e1, e2⟩, e3⟩ := hgb
  refine ⟨_, _, _, _, ⟨none, some ⟨k1, 0⟩, 0, some ⟨k2, 0⟩, 0, ta, vals'⟩, hc, hacc, ?_, ?_, ?_⟩
  · have a1 : (wire utf8 L).action h1 = .read := a1
    have r2 : (wire utf8 L).read h1 m2 = some h2 := r2
    have a2 : (wire utf8 L).action h2 = .split := a2
    have s2 : (wire utf8 L).split h2 = some (k1, k2) := s2
    have e1 : (wire utf8 L).attest ta (enc (fBytes 1 vb ++ fBytes 2 db)) = some (b, vals') := e1
    have tk : toKey b = some b := by simp [toKey, hb, zeros]
    have ce : ctEq b b = true := by simp
    have st : ({ p.drop with handshake := some h1 } : Peer (wire utf8 L)).state = .connecting := rfl
    simp only [recv, st, finishConnection, a1, conn_parse e3 l2, e1, tk, ce, checkValues_none.mpr e2, r2, a2, s2]
    rfl
  · exact ⟨⟨rfl, ⟨_, rfl⟩, ⟨_, rfl⟩⟩, ⟨rfl, ⟨_, rfl⟩, ⟨_, rfl⟩⟩, rfl, rfl, fun c hc => by cases hc; exact Nat.zero_le _⟩
  · exact ⟨⟨rfl, ⟨_, rfl⟩, ⟨_, rfl⟩⟩, ⟨rfl, ⟨_, rfl⟩, ⟨_, rfl⟩⟩, rfl, rfl, fun c hc => by cases hc; exact Nat.zero_le _⟩

/-- **C100 is false if the requests cross**: both connect, each accepts the request of the other and is connected, and then each is given the answer to
its own request, which it no longer expects. Everything was delivered, in order and unaltered, and all evidence was good; in the end both are
disconnected, after they told their cores that they were connected, and each sends a reset. Nothing breaks the tie. -/
theorem C100_crossing {a b : Peers.Id} {pa pb : L.Priv} (hk : Shakes L pa pb a b) (hk' : Shakes L pb pa b a) {va da vb db : Bytes} {ta tb : Int}
    {la lb : Limits} (hga : Good L a tb lb va da) (hgb : Good L b ta la vb db) (r1 r2 r3 r4 : Bytes) (p q : Peer (wire utf8 L)) :
    ∃ synA synB ackA ackB p1 q1 p2 q2,
      internalConnect (wire utf8 L) b pa (enc (fBytes 1 va ++ fBytes 2 da)) r1 p = .ok ⟨p1, [.syn synA], none, none⟩ ∧
      internalConnect (wire utf8 L) a pb (enc (fBytes 1 vb ++ fBytes 2 db)) r2 q = .ok ⟨q1, [.syn synB], none, none⟩ ∧
      accept (wire utf8 L) b ta la pa (enc (fBytes 1 va ++ fBytes 2 da)) synB r3 p1 = .ok ⟨p2, [.synack ackA], none, some .connected⟩ ∧
      accept (wire utf8 L) a tb lb pb (enc (fBytes 1 vb ++ fBytes 2 db)) synA r4 q1 = .ok ⟨q2, [.synack ackB], none, some .connected⟩ ∧
      recv (wire utf8 L) b ta la (.synack ackB) p2 = .ok ⟨p2.drop, [.rst], some .synAckNotConnecting, none⟩ ∧
      recv (wire utf8 L) a tb lb (.synack ackA) q2 = .ok ⟨q2.drop, [.rst], some .synAckNotConnecting, none⟩ ∧
      p2.drop.state = .disconnected ∧ q2.drop.state = .disconnected := by
  obtain ⟨h1, m1, -, -, ⟨h0, n1, w1⟩, hc⟩ := connects (utf8 := utf8) hk hga.size r1 p
  obtain ⟨h1', m1', -, -, ⟨h0', n1', w1'⟩, hc'⟩ := connects (utf8 := utf8) hk' hgb.size r2 q
  obtain ⟨m2, h2, k1, k2, vals, -, -, -, -, hacc⟩ := accepts (utf8 := utf8) hk hga hgb.size r1 r4 n1 w1
    ({ q.drop with handshake := some h1' } : Peer (wire utf8 L))
  obtain ⟨m2', h2', k1', k2', vals', -, -, -, -, hacc'⟩ := accepts (utf8 := utf8) hk' hgb hga.size r2 r3 n1' w1'
    ({ p.drop with handshake := some h1 } : Peer (wire utf8 L))
  exact ⟨_, _, _, _, _, _, _, _, hc, hc', hacc', hacc, rfl, rfl, rfl, rfl⟩

/-- **C100** and C99: what is sent after an undisturbed handshake, either way, is read at the other end. -/
theorem C100_then_reads_partial {ord : Limits → List (Bytes × Bytes)} (ho : ∀ m : Limits, (ord m).Perm m.list) (hL : Sane L) {a b : Peers.Id} (hb : b.length = 32)
    {pa pb : L.Priv} (hk : Shakes L pa pb a b) {va da vb db : Bytes} {ta tb : Int} {la lb : Limits} (hga : Good L a tb lb va da)
    (hgb : Good L b ta la vb db) (rnd rnd' : Bytes) (p q : Peer (wire utf8 L)) :
    ∃ syn synack p1 q1 p2,
      internalConnect (wire utf8 L) b pa (enc (fBytes 1 va ++ fBytes 2 da)) rnd p = .ok ⟨p1, [.syn syn], none, none⟩ ∧
      accept (wire utf8 L) a tb lb pb (enc (fBytes 1 vb ++ fBytes 2 db)) syn rnd' q = .ok ⟨q1, [.synack synack], none, some .connected⟩ ∧
      recv (wire utf8 L) b ta la (.synack synack) p1 = .ok ⟨p2, [], none, some .connected⟩ ∧
      (∀ {xs : List Arrival} {ms : List E2E} {p' cs}, (∀ m ∈ ms, Fit utf8 m ∧ (encE2E ord m).length ≤ maxLen ∧ ∀ v d, m ≠ .update v d) →
        sendSeq (wire utf8 L) p2 (ms.map (seen ord)) = some (p', cs) → xs.map (·.data) = cs →
        ∃ q' os, recvSeq (wire utf8 L) a q1 xs = some (q', os) ∧ os.map (readMsg utf8) = ms.map some) ∧
      (∀ {xs : List Arrival} {ms : List E2E} {q' cs}, (∀ m ∈ ms, Fit utf8 m ∧ (encE2E ord m).length ≤ maxLen ∧ ∀ v d, m ≠ .update v d) →
        sendSeq (wire utf8 L) q1 (ms.map (seen ord)) = some (q', cs) → xs.map (·.data) = cs →
        ∃ p' os, recvSeq (wire utf8 L) b p2 xs = some (p', os) ∧ os.map (readMsg utf8) = ms.map some) := by
  obtain ⟨syn, synack, p1, q1, p2, h1, h2, h3, h4, h5⟩ := C100_connected_partial (utf8 := utf8) hb hk hga hgb rnd rnd' p q
  have core : ∀ {ms : List E2E}, (∀ m ∈ ms, Fit utf8 m ∧ (encE2E ord m).length ≤ maxLen ∧ ∀ v d, m ≠ .update v d) → ms.map forCore = ms.map some := by
    intro ms hm
    refine List.map_congr_left fun m hmem => ?_
    cases m with
    | update v d => exact absurd rfl ((hm _ hmem).2.2 v d)
    | _ => rfl
  refine ⟨syn, synack, p1, q1, p2, h1, h2, h3, ?_, ?_⟩
  · intro xs ms p' cs hm hs hx
    obtain ⟨q', os, g1, g2, -⟩ := PeerWire.C99_delivered ho hL (id := a) (fun m hmem => ⟨(hm m hmem).1, (hm m hmem).2.1⟩) h4 hs hx
      (fun v d hmem => absurd rfl ((hm _ hmem).2.2 v d))
    exact ⟨q', os, g1, by rw [g2, core hm]⟩
  · intro xs ms q' cs hm hs hx
    obtain ⟨p', os, g1, g2, -⟩ := PeerWire.C99_delivered ho hL (id := b) (fun m hmem => ⟨(hm m hmem).1, (hm m hmem).2.1⟩) h5 hs hx
      (fun v d hmem => absurd rfl ((hm _ hmem).2.2 v d))
    exact ⟨p', os, g1, by rw [g2, core hm]⟩

/-! ## Concrete cases -/

/-- The libraries of the examples of C53: the evidence is good, and for whom it is, is in it. -/
def lib : Lib := { PeerSession.keyed with attest := fun _ ev => some (ev.drop 2, OMap.empty) }

def ann : Peers.Id := List.replicate 32 7
def bob : Peers.Id := List.replicate 32 9

theorem lib_sane : Sane lib := PeerSession.keyed_sane

theorem shakes (a b : Peers.Id) : Shakes lib () () a b :=
  ⟨(.initiator, 0), (.responder, 0), rfl, rfl, rfl, rfl, fun _ => ⟨(.initiator, 1), [], (.responder, 1), rfl, by decide, rfl, rfl, rfl,
    fun _ => ⟨(.responder, 2), [], (.initiator, 2), (1 : Nat), (2 : Nat), rfl, by decide, rfl, rfl, rfl, rfl, rfl⟩⟩⟩

theorem goods (ts : Int) : Good lib ann ts .empty ann [] ∧ Good lib bob ts .empty bob [] :=
  ⟨⟨⟨.empty, rfl, fun k b v hk => by cases hk⟩, by decide⟩, ⟨⟨.empty, rfl, fun k b v hk => by cases hk⟩, by decide⟩⟩

example := C100_connected_partial (utf8 := PeerWire.ascii) (L := lib) (by decide) (shakes ann bob) (goods 60).1 (goods 61).2 [1] [2] .new .new

example := C100_crossing (utf8 := PeerWire.ascii) (L := lib) (shakes ann bob) (shakes bob ann) (goods 60).1 (goods 61).2 [1] [2] [3] [4] .new .new

end Svr.Props.Handshake
