import Verif.Wire.E2EProof
import Verif.Props.PeerSession

/-!
# C99: an enclave reads what another enclave wrote, from message to message

The wire format of `EnclaveToEnclaveMessage` (`Wire/E2E.lean`) and the session that carries it (C53).
-/

namespace Svr.Props.PeerWire

open Svr.Wire Svr.Peers
open Svr.Minimums (Limits)
open Props.PeerSession (Arrival sendSeq recvSeq sealedBy offered NoForgery InStep handed)
open Props.Peers (Sane)

/-- What fits its fields, stated by itself: numbers of 64 bits, values of enums that are not negative, and keys that are text. -/
def Fit (utf8 : Bytes → Bool) : E2E → Prop
  | .unset => True
  | .connected => True
  | .update _ _ => True
  | .raft m => m.group < 2 ^ 64 ∧ m.term < 2 ^ 64 ∧
    match m.body with
    | .voteReq i t _ => i < 2 ^ 64 ∧ t < 2 ^ 64
    | .appReq pi pt _ es c a => pi < 2 ^ 64 ∧ pt < 2 ^ 64 ∧ c < 2 ^ 64 ∧ a < 2 ^ 64 ∧ ∀ e ∈ es, e.term < 2 ^ 64
    | .appResp _ m l a _ => m < 2 ^ 64 ∧ l < 2 ^ 64 ∧ a < 2 ^ 64
    | _ => True
  | .request i q => i < 2 ^ 64 ∧
    match q with
    | .replicate g r => g < 2 ^ 64 ∧ r < 2 ^ 64
    | .push p => p.id < 2 ^ 64 ∧ p.seq < 2 ^ 64 ∧ p.first < 2 ^ 64 ∧ (∀ e ∈ p.entries, e.term < 2 ^ 64) ∧
      ∀ l, p.lim = some l → ∀ x ∈ l.list, utf8 x.1 = true
    | .clock n => n < 2 ^ 64
    | _ => True
  | .response i r => i < 2 ^ 64 ∧
    match r with
    | .status n => n < 2 ^ 31
    | .getRaft r => (∀ c, r.conf = some c → c.db < 2 ^ 31) ∧ ∀ l, r.lim = some l → ∀ x ∈ l.list, utf8 x.1 = true
    | .membership l => l.term < 2 ^ 64 ∧ l.idx < 2 ^ 64
    | .voting l => l.term < 2 ^ 64 ∧ l.idx < 2 ^ 64
    | .write l => l.term < 2 ^ 64 ∧ l.idx < 2 ^ 64
    | .unset => True

variable {ord : Limits → List (Bytes × Bytes)} {utf8 : Bytes → Bool}

theorem fit_ok {m : E2E} (h : Fit utf8 m) : m.Ok utf8 := by
  cases m with
  | raft m =>
    refine ⟨h.1, h.2.1, ?_⟩
    have h := h.2.2
    cases hb : m.body with
    | voteReq i t x => rw [hb] at h; exact ⟨fun _ => h.1, fun _ => h.2⟩
    | appReq pi pt ph es c a =>
      rw [hb] at h
      exact ⟨fun _ => h.1, fun _ => h.2.1, fun _ => h.2.2.1, fun _ => h.2.2.2.1, fun e he _ => h.2.2.2.2 e he⟩
    | appResp s m l a x => rw [hb] at h; exact ⟨fun _ => h.1, fun _ => h.2.1, fun _ => h.2.2⟩
    | _ => trivial
  | request i q => refine ⟨h.1, ?_⟩; cases q <;> exact h.2
  | response i r => refine ⟨h.1, ?_⟩; cases r <;> exact h.2
  | _ => trivial

/-- **C99**: a message is read as it was written, in whatever order the library writes the entries of its maps. -/
theorem C99_round_trip (ho : ∀ m : Limits, (ord m).Perm m.list) {m : E2E} (h : Fit utf8 m) (hl : (encE2E ord m).length ≤ maxLen) :
    decE2E utf8 (encE2E ord m) = some m := decE2E_encE2E ho (fit_ok h) hl

/-- **C99**: different messages have different bytes, even if they are written by different libraries. -/
theorem C99_differ {ord' : Limits → List (Bytes × Bytes)} (ho : ∀ m : Limits, (ord m).Perm m.list) (ho' : ∀ m : Limits, (ord' m).Perm m.list)
    {m m' : E2E} (h : Fit utf8 m) (h' : Fit utf8 m') (hl : (encE2E ord m).length ≤ maxLen) (hl' : (encE2E ord' m').length ≤ maxLen)
    (hne : m ≠ m') : encE2E ord m ≠ encE2E ord' m' := by
  intro he
  have h1 := C99_round_trip ho h hl
  rw [he, C99_round_trip ho' h' hl'] at h1
  exact hne (Option.some.inj h1).symm

/-! ## Through a session -/

/-- `SerializeToString` fails for more than 2^31 - 1 bytes. -/
def sized (b : Bytes) : Option Bytes := if b.length < 2 ^ 31 then some b else none

/-- The libraries with this wire format in place of `serMsg` and `parseMsg` (enclave/peers/peers.cc:82, 142), `serConn` and `parseConn`
(enclave/peers/peers.cc:179, 278, 310, 347). -/
def wire (utf8 : Bytes → Bool) (L : Lib) : Lib := { L with
  serMsg := fun m => match m with
    | .connected => sized (enc [(1, .num 1)])
    | .update a => sized (enc [(3, .len a)])
    | .other b => sized b
  parseMsg := fun b => match decE2E utf8 b with
    | none => none
    | some .connected => some .connected
    | some (.update v d) => some (.update (enc (fBytes 1 v ++ fBytes 2 d)))
    | some _ => some (.other b)
  serConn := fun a hs => sized (encConn a hs)
  parseConn := fun b => (decConn b).map fun x => (enc (fBytes 1 x.1.1 ++ fBytes 2 x.1.2), x.2) }

/-- A message as the session sees it: only two kinds are its own business. -/
def seen (ord : Limits → List (Bytes × Bytes)) : E2E → Peers.Msg
  | .connected => .connected
  | .update v d => .update (enc (fBytes 1 v ++ fBytes 2 d))
  | m => .other (encE2E ord m)

/-- What the core reads in what the session hands on. -/
def readMsg (utf8 : Bytes → Bool) : Option Peers.Msg → Option E2E
  | none => none
  | some .connected => some .connected
  | some (.update _) => none
  | some (.other b) => decE2E utf8 b

/-- What of a message is for the core: all but evidence. -/
def forCore : E2E → Option E2E
  | .update _ _ => none
  | m => some m

variable {L : Lib}

theorem ser_seen (m : E2E) : (wire utf8 L).serMsg (seen ord m) = sized (encE2E ord m) := by
  cases m <;> rfl

theorem handed_seen (ho : ∀ m : Limits, (ord m).Perm m.list) {m : E2E} (h : Fit utf8 m) (hl : (encE2E ord m).length ≤ maxLen) :
    readMsg utf8 (handed (wire utf8 L) (seen ord m)) = forCore m := by
  have hr := C99_round_trip ho h hl
  have hs : sized (encE2E ord m) = some (encE2E ord m) := if_pos (by unfold maxLen at hl; omega)
  unfold handed
  rw [ser_seen, hs]
  show readMsg utf8 (match (match decE2E utf8 (encE2E ord m) with
    | none => none
    | some .connected => some Peers.Msg.connected
    | some (.update v d) => some (.update (enc (fBytes 1 v ++ fBytes 2 d)))
    | some _ => some (.other (encE2E ord m))) with
    | some (.update _) => none
    | r => r) = _
  rw [hr]
  cases m with
  | connected => rfl
  | update v d => rfl
  | _ => exact hr

/-- **C99**: as long as the session lasts and the host brings no empty data, what the core of one enclave reads is what the other enclave sent, in
order, once each and unaltered: Raft messages, requests with state and rows, responses, all of them. -/
theorem C99_in_order (ho : ∀ m : Limits, (ord m).Perm m.list) (hL : Sane L) {id : Peers.Id} {xs : List Arrival} {ms : List E2E}
    {p p' q q' : Peer (wire utf8 L)} {cs : List Bytes} {os : List (Option Peers.Msg)} {old : List (Nat × Bytes × Bytes)}
    (hm : ∀ m ∈ ms, Fit utf8 m ∧ (encE2E ord m).length ≤ maxLen)
    (hi : InStep p q) (hs : sendSeq (wire utf8 L) p (ms.map (seen ord)) = some (p', cs)) (hr : recvSeq (wire utf8 L) id q xs = some (q', os)) (hq : Ready q')
    (hne : ∀ x ∈ xs, x.data ≠ []) (hold : ∀ c, p.tx = some c → ∀ x ∈ old, x.1 < c.nonce)
    (hf : NoForgery (wire utf8 L) (old ++ sealedBy (wire utf8 L) p (ms.map (seen ord))) (offered (wire utf8 L) id q xs)) :
    os.map (readMsg utf8) = (ms.take xs.length).map forCore := by
  obtain ⟨-, h, -⟩ := PeerSession.C53_in_order_partial (L := wire utf8 L) hL xs hi hs hr hq hne hold hf
  rw [h, ← List.map_take, List.map_map, List.map_map]
  refine List.map_congr_left fun m hmem => ?_
  have := hm m (List.mem_of_mem_take hmem)
  exact handed_seen ho this.1 this.2

/-- **C99**: what is sent and carried over is read by the core of the other enclave, all of it. -/
theorem C99_delivered (ho : ∀ m : Limits, (ord m).Perm m.list) (hL : Sane L) {id : Peers.Id} {xs : List Arrival} {ms : List E2E}
    {p p' q : Peer (wire utf8 L)} {cs : List Bytes} (hm : ∀ m ∈ ms, Fit utf8 m ∧ (encE2E ord m).length ≤ maxLen)
    (hi : InStep p q) (hs : sendSeq (wire utf8 L) p (ms.map (seen ord)) = some (p', cs)) (hx : xs.map (·.data) = cs)
    (hev : ∀ v d, E2E.update v d ∈ ms → ∀ x ∈ xs, ∃ vals, L.attest x.ts (enc (fBytes 1 v ++ fBytes 2 d)) = some (id, vals) ∧ Meets x.lim vals) :
    ∃ q' os, recvSeq (wire utf8 L) id q xs = some (q', os) ∧ os.map (readMsg utf8) = ms.map forCore ∧ InStep p' q' := by
  obtain ⟨q', h1, h2⟩ := PeerSession.C53_delivered (L := wire utf8 L) hL (id := id) (ms.map (seen ord)) hi hs hx (by
    intro y hy b ev hb hp x hxm
    obtain ⟨m, hmm, rfl⟩ := List.mem_map.1 hy
    obtain ⟨hfit, hlen⟩ := hm m hmm
    have hr := C99_round_trip ho hfit hlen
    rw [ser_seen, sized, if_pos (by unfold maxLen at hlen; omega)] at hb
    cases hb
    have hp : (match decE2E utf8 (encE2E ord m) with
      | none => none
      | some .connected => some Peers.Msg.connected
      | some (.update v d) => some (.update (enc (fBytes 1 v ++ fBytes 2 d)))
      | some _ => some (.other (encE2E ord m))) = some (.update ev) := hp
    rw [hr] at hp
    cases m with
    | update v d =>
      cases hp
      exact hev v d hmm x hxm
    | _ => cases hp)
  refine ⟨q', _, h1, ?_, h2⟩
  rw [List.map_map, List.map_map]
  exact List.map_congr_left fun m hmem => handed_seen ho (hm m hmem).1 (hm m hmem).2

/-- **C99**: no bytes are a message with nothing set. So the hypothesis of `C53_empty_injected` holds of the wire format: for each empty piece of data
the host brings, the core reads a message that nobody sent, though one that says nothing. -/
theorem C99_empty : decE2E utf8 [] = some .unset ∧ (wire utf8 L).parseMsg [] = some (.other []) := ⟨rfl, rfl⟩

/-! ## A concrete session -/

/-- The sorted order, and text of seven bits. -/
def inOrder (m : Limits) : List (Bytes × Bytes) := m.list
def ascii (b : Bytes) : Bool := b.all (· < 128)

theorem inOrder_perm (m : Limits) : (inOrder m).Perm m.list := List.Perm.refl _

/-- A push of state with an entry, two rows, the members and two limits. -/
def aPush : PushW :=
  { id := 7, seq := 300, first := 12, entries := [⟨3, .data [1, 2], [9, 9]⟩], toEnd := true, rows := [[8, 0], []], mem := some [([5, 6], true), ([7], false)],
    lim := some ((OMap.empty.insert [97] [1]).insert [98, 99] [0, 2]) }

def msgs : List E2E :=
  [.request (2 ^ 63) (.push aPush), .update [4, 4] [5], .raft ⟨77, 3, .voteReq 12 3 [1]⟩,
   .response 5 (.getRaft { conf := some { gid := 77, minV := 3, maxV := 5, super := 1, db := 2, timeout := 60, simulated := true }, group := some [([5, 6], true)] }),
   .response 6 (.write { term := 3, idx := 13, hash := [2] })]

theorem msgs_fit : ∀ m ∈ msgs, Fit ascii m ∧ (encE2E inOrder m).length ≤ maxLen := by
  intro m hm
  simp only [msgs, List.mem_cons, List.not_mem_nil, or_false] at hm
  rcases hm with rfl | rfl | rfl | rfl | rfl
  · refine ⟨⟨by decide, by decide, by decide, by decide, by decide, ?_⟩, by decide +kernel⟩
    intro l hl
    cases hl
    decide
  · exact ⟨trivial, by decide +kernel⟩
  · exact ⟨⟨by decide, by decide, by decide, by decide⟩, by decide +kernel⟩
  · refine ⟨⟨by decide, fun c hc => ?_, fun l hl => by cases hl⟩, by decide +kernel⟩
    cases hc
    decide
  · exact ⟨⟨by decide, by decide, by decide⟩, by decide +kernel⟩

example : ∀ m ∈ msgs, decE2E ascii (encE2E inOrder m) = some m := fun m hm => C99_round_trip inOrder_perm (msgs_fit m hm).1 (msgs_fit m hm).2

/-- The libraries of the example of C53, with evidence that is good. -/
def lib : Lib := { PeerSession.keyed with attest := fun _ _ => some (Props.Peers.pal, .empty) }

theorem lib_sane : Sane lib := PeerSession.keyed_sane

def near : Peer (wire ascii lib) :=
  { handshake := none, tx := some ⟨(5 : Nat), 300⟩, txRekey := 253, rx := some ⟨(6 : Nat), 9⟩, rxRekey := 9, lastAttestation := 50, minimums := .empty }

def far : Peer (wire ascii lib) :=
  { handshake := none, tx := some ⟨(6 : Nat), 9⟩, txRekey := 9, rx := some ⟨(5 : Nat), 300⟩, rxRekey := 253, lastAttestation := 50, minimums := .empty }

theorem step : InStep near far :=
  ⟨⟨rfl, ⟨_, rfl⟩, ⟨_, rfl⟩⟩, ⟨rfl, ⟨_, rfl⟩, ⟨_, rfl⟩⟩, rfl, rfl, fun c hc => by cases hc; decide⟩

/-- The five messages go out, with a change of key among them. -/
def wireData : List Bytes := ((sendSeq (wire ascii lib) near (msgs.map (seen inOrder))).map (·.2)).getD []

theorem wireData_five : wireData.length = 5 ∧ (sendSeq (wire ascii lib) near (msgs.map (seen inOrder))).isSome = true := by
  decide +kernel

example : ∃ q' os, recvSeq (wire ascii lib) Props.Peers.pal far (wireData.map fun d => ⟨60, .empty, d⟩) = some (q', os) ∧
    os.map (readMsg ascii) = msgs.map forCore := by
  obtain ⟨⟨p', cs⟩, hs⟩ := Option.isSome_iff_exists.1 wireData_five.2
  have hc : wireData = cs := by rw [wireData, hs]; rfl
  obtain ⟨q', os, h1, h2, -⟩ := C99_delivered (L := lib) inOrder_perm lib_sane (id := Props.Peers.pal) (xs := wireData.map fun d => ⟨60, .empty, d⟩)
    msgs_fit step hs (by rw [List.map_map, ← hc]; exact List.map_id _) (fun v d _ x hx => by
      obtain ⟨_, _, rfl⟩ := List.mem_map.1 hx
      exact ⟨.empty, rfl, fun k b v hk => by cases hk⟩)
  exact ⟨q', os, h1, h2⟩

/-- The hypotheses of `C99_in_order` for one request. -/
example : encE2E inOrder (.request 5 .ping) = [34, 4, 8, 5, 16, 1] ∧ ∃ p' q' os,
    sendSeq (wire ascii lib) near ([E2E.request 5 .ping].map (seen inOrder)) = some (p', [[34, 4, 8, 5, 16, 1, 5, 44, 1]]) ∧
    recvSeq (wire ascii lib) Props.Peers.pal far [⟨60, .empty, [34, 4, 8, 5, 16, 1, 5, 44, 1]⟩] = some (q', os) ∧ Ready q' ∧
    NoForgery (wire ascii lib) (sealedBy (wire ascii lib) near ([E2E.request 5 .ping].map (seen inOrder)))
      (offered (wire ascii lib) Props.Peers.pal far [⟨60, .empty, [34, 4, 8, 5, 16, 1, 5, 44, 1]⟩]) := by
  refine ⟨by decide +kernel, _, _, _, rfl, rfl, ⟨rfl, ⟨_, rfl⟩, ⟨_, rfl⟩⟩, ?_⟩
  have short : ∀ k (b : Bytes), b.length ≤ k → Noise.parts k b = [b] := by
    intro k b h; rw [Noise.parts, dif_pos (.inr h)]
  have hmx : Noise.maxMessage = 65535 := rfl
  have e1 : sealedBy (wire ascii lib) near ([E2E.request 5 .ping].map (seen inOrder)) =
      Props.Noise.calls 300 (Props.Noise.partsOf (Noise.maxMessage - 3) [34, 4, 8, 5, 16, 1]) ++ [] := rfl
  have e2 : offered (wire ascii lib) Props.Peers.pal far [⟨60, .empty, [34, 4, 8, 5, 16, 1, 5, 44, 1]⟩] =
      (Props.Noise.calls 300 (Props.Noise.packetsOf Noise.maxMessage [34, 4, 8, 5, 16, 1, 5, 44, 1])).map (fun y => ((5 : Nat), y)) ++ [] := rfl
  rw [e1, e2]
  intro x hx pl hpl
  unfold Props.Noise.packetsOf at hx
  rw [if_neg (by simp), short _ _ (by rw [hmx]; decide)] at hx
  unfold Props.Noise.partsOf
  rw [short _ _ (by rw [hmx]; decide)]
  have hx : x ∈ ([((5 : Nat), 300, Noise.adFor true true, [34, 4, 8, 5, 16, 1, 5, 44, 1])] : List (Nat × Nat × Bytes × Bytes)) := hx
  obtain rfl := List.mem_singleton.mp hx
  cases hpl
  exact ⟨List.mem_cons_self, rfl⟩

end Svr.Props.PeerWire
