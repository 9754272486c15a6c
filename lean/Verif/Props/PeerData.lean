import Verif.Props.PeerWire

/-!
# C53 and C99 for all data, empty data included

Empty data is decrypted without a key and counted (`C53_empty_injected`), so that the host can bring the two ends out of step. What it cannot do is make
the receiver hand on anything else than what was sent.
-/

namespace Svr.Props.PeerSession

open Svr.Peers
open Svr.Minimums (Limits Values)
open Props.Noise (calls partsOf packetsOf)
open Props.Peers (Sane)

variable {L : Lib}

/-- The next nonce of the sender is that of the receiver; their keys and counts may differ. -/
structure Aligned (p q : Peer L) : Prop where
  nonce : ∀ c d, p.tx = some c → q.rx = some d → c.nonce = d.nonce
  some : ∃ c, p.tx = some c ∧ c.nonce ≤ Noise.lastNonce

theorem InStep.aligned {p q : Peer L} (h : InStep p q) : Aligned p q := by
  obtain ⟨c, hc⟩ := h.tx.2.1
  exact ⟨fun c d h1 h2 => by rw [h.cipher, h2] at h1; cases h1; rfl, c, hc, h.nonce c hc⟩

/-- Arrivals with data, and what was handed on for them. -/
def withData (xs : List Arrival) (os : List (Option Msg)) : List (Option Msg) := ((xs.zip os).filter fun y => y.1.data ≠ []).map (·.2)

/-- **C53**, for all data: as long as the session lasts, what the receiver handed on for data is a beginning of what the sender sent, in order, once
each and unaltered, even if the host brings empty data in between and so makes the receiver change its key too early. -/
theorem C53_nothing_made_up (hL : Sane L) {id : Id} : ∀ (xs : List Arrival) {ms : List Msg} {p p' q q' : Peer L}
    {cs : List Bytes} {os : List (Option Msg)} {old : List (Nat × Bytes × Bytes)},
    Aligned p q → sendSeq L p ms = some (p', cs) → recvSeq L id q xs = some (q', os) → Ready q' →
    (∀ c, p.tx = some c → ∀ x ∈ old, x.1 < c.nonce) →
    NoForgery L (old ++ sealedBy L p ms) (offered L id q xs) →
    os.length = xs.length ∧ (withData xs os).length ≤ ms.length ∧ withData xs os = (ms.take (withData xs os).length).map (handed L) ∧
    ∀ y ∈ xs.zip os, y.1.data = [] → y.2 = match L.parseMsg [] with | some (.update _) => none | o => o
  | [], ms, p, p', q, q', cs, os, old, hi, hs, hr, _, _, _ => by
    cases hr
    exact ⟨rfl, by simp [withData], by simp [withData], fun y hy => by simp at hy⟩
  | x :: xs, ms, p, p', q, q', cs, os, old, hi, hs, hr, hq, ho, hf => by
    obtain ⟨r, os', h1, h2, rfl⟩ := recvSeq_cons hr
    have hr1 := recvSeq_ready h2 hq
    obtain ⟨d, n, pt, hx, -, hd, ⟨la, mins, hp⟩, hdec⟩ := decoded_of h1 hr1
    obtain ⟨c, htx, hn⟩ := hi.some
    have hnon := hi.nonce c d htx hx
    have hof : offered L id q (x :: xs) =
        (calls d.nonce (packetsOf Noise.maxMessage x.data)).map (fun y => (d.key, y)) ++ offered L id r.peer xs := by
      rw [offered, hx, h1]
    rw [hof] at hf
    by_cases hne : x.data = []
    · rw [hne, Props.Noise.C45_empty_accepted] at hd
      cases hd
      have hal : Aligned p r.peer := by
        refine ⟨fun c1 d1 e1 e2 => ?_, c, htx, hn⟩
        rw [hp] at e2
        cases e2
        exact hi.nonce c1 d e1 hx
      obtain ⟨k0, k1, k2, k3⟩ := C53_nothing_made_up hL xs hal hs h2 hq ho (fun y hy => hf y (List.mem_append_right _ hy))
      have hw : withData (x :: xs) (r.decoded :: os') = withData xs os' := by simp [withData, hne]
      rw [hw]
      refine ⟨by simp [k0], k1, k2, fun y hy he => ?_⟩
      rcases List.mem_cons.1 hy with rfl | hy
      · exact hdec
      · exact k3 y hy he
    · obtain ⟨l1, l2, l3⟩ := hL d.key
      obtain ⟨m1, m2, m3⟩ := hL c.key
      obtain ⟨T, hT⟩ := sealedBy_calls hL hs htx hn
      obtain ⟨ps, hps, hpre, hpt, hn1, -⟩ := opened l1 (by omega) hne hd
        (S := old ++ sealedBy L p ms) (T := T)
        (fun y hy pl hpl => hf _ (List.mem_append_left _ (List.mem_map_of_mem (f := fun y => (d.key, y)) hy)) pl hpl)
        (by
          intro y hy hl
          rcases List.mem_append.mp hy with e | e
          · have := ho c htx y e; omega
          · rw [hT, hnon] at e; exact e)
      match ms, hs with
      | [], hs =>
        exfalso
        have hT0 : calls c.nonce T = [] := hT.symm
        have : T = [] := by
          cases T with
          | nil => rfl
          | cons a l => cases a; simp [calls] at hT0
        subst this
        exact Noise.tag_ne hps (List.prefix_nil.mp hpre)
      | m :: ms, hs =>
        obtain ⟨r', b, c', n', ct, cs', g1, g2, g3, -, g5, g6, g7, rfl⟩ := sendSeq_cons hs
        obtain rfl : c' = c := by rw [g3] at htx; cases htx; rfl
        obtain ⟨a1, rfl, a3⟩ := Props.Noise.encrypt_some m1 m3 m2 hn g5
        obtain ⟨T', hT'⟩ := sealedBy_calls hL g7 (by rw [g6]) a1
        have hc2 := sealedBy_cons (t := ms) g2 g3 g1
        have hpre' : Noise.tag ps <+: Noise.tag (Noise.parts (Noise.maxMessage - (L.aead c'.key).mac) b) ++ T' := by
          have e : calls c'.nonce T = calls c'.nonce (Noise.tag (Noise.parts (Noise.maxMessage - (L.aead c'.key).mac) b) ++ T') := by
            rw [← hT, hc2, hT', Props.Noise.calls_append, partsOf, Noise.tag_length]
          rw [← calls_inj e]
          exact hpre
        have e := Props.Noise.tag_prefix hps (Noise.parts_ne _ _) hpre'
        subst e
        rw [Noise.parts_flatten (by omega)] at hpt
        subst hpt
        have hal : Aligned r'.peer r.peer := by
          rw [g6, hp]
          refine ⟨fun c1 d1 e1 e2 => ?_, _, rfl, a1⟩
          cases e1
          cases e2
          simp only
          omega
        obtain ⟨k0, k1, k2, k3⟩ := C53_nothing_made_up hL xs (old := old ++ calls c'.nonce (partsOf (Noise.maxMessage - (L.aead c'.key).mac) pt))
          hal g7 h2 hq
          (by
            intro c2 hc2 y hy
            rw [g6] at hc2
            cases hc2
            rcases List.mem_append.mp hy with e | e
            · have := ho c' htx y e; simp only; omega
            · have := Props.Noise.calls_lt e; rw [partsOf, Noise.tag_length] at this; exact this)
          (by
            intro y hy pl hpl
            have := hf y (List.mem_append_right _ hy) pl hpl
            rw [hc2, ← List.append_assoc] at this
            exact this)
        have hw : withData (x :: xs) (r.decoded :: os') = r.decoded :: withData xs os' := by simp [withData, hne]
        rw [hw]
        refine ⟨by simp [k0], by simpa using k1, ?_, fun y hy he => ?_⟩
        · rw [List.length_cons, List.take_succ_cons, List.map_cons, ← k2, hdec, handed, g2]
        · rcases List.mem_cons.1 hy with rfl | hy
          · exact absurd he hne
          · exact k3 y hy he

end Svr.Props.PeerSession

namespace Svr.Props.PeerWire

open Svr.Wire Svr.Peers
open Svr.Minimums (Limits)
open Props.PeerSession (Arrival sendSeq recvSeq sealedBy offered NoForgery Aligned withData)
open Props.Peers (Sane)

variable {ord : Limits → List (Bytes × Bytes)} {utf8 : Bytes → Bool} {L : Lib}

/-- **C99**, for all data: whatever the host brings, what the core reads is what was sent, in order and once each, and messages with nothing set, one for
each empty piece of data. -/
theorem C99_nothing_made_up (ho : ∀ m : Limits, (ord m).Perm m.list) (hL : Sane L) {id : Peers.Id} {xs : List Arrival} {ms : List E2E}
    {p p' q q' : Peer (wire utf8 L)} {cs : List Bytes} {os : List (Option Peers.Msg)} {old : List (Nat × Bytes × Bytes)}
    (hm : ∀ m ∈ ms, Fit utf8 m ∧ (encE2E ord m).length ≤ maxLen)
    (hi : Aligned p q) (hs : sendSeq (wire utf8 L) p (ms.map (seen ord)) = some (p', cs)) (hr : recvSeq (wire utf8 L) id q xs = some (q', os)) (hq : Ready q')
    (hold : ∀ c, p.tx = some c → ∀ x ∈ old, x.1 < c.nonce)
    (hf : NoForgery (wire utf8 L) (old ++ sealedBy (wire utf8 L) p (ms.map (seen ord))) (offered (wire utf8 L) id q xs)) :
    (∃ k, k ≤ ms.length ∧ (withData xs os).map (readMsg utf8) = (ms.take k).map forCore) ∧
    ∀ y ∈ xs.zip os, y.1.data = [] → readMsg utf8 y.2 = some .unset := by
  obtain ⟨-, h1, h2, h3⟩ := PeerSession.C53_nothing_made_up (L := wire utf8 L) hL xs hi hs hr hq hold hf
  refine ⟨⟨(withData xs os).length, by simpa using h1, ?_⟩, fun y hy he => ?_⟩
  · generalize (withData xs os).length = k at h1 h2
    rw [h2, ← List.map_take, List.map_map, List.map_map]
    refine List.map_congr_left fun m hmem => ?_
    have := hm m (List.mem_of_mem_take hmem)
    exact handed_seen ho this.1 this.2
  · rw [h3 y hy he]
    rfl

/-- The ends of the session of the example are aligned, and stay so after empty data, with the keys no longer the same: `far` was brought to its next
key by three empty pieces of data. -/
example : ∃ q', recvSeq (wire ascii lib) Props.Peers.pal far (List.replicate 3 ⟨60, .empty, []⟩) = some (q', List.replicate 3 (some (.other []))) ∧
    q'.rx = some ⟨(7 : Nat), 300⟩ ∧ near.tx = some ⟨(5 : Nat), 300⟩ ∧ Aligned near q' :=
  ⟨_, rfl, rfl, rfl, fun c d hc hd => by cases hc; cases hd; rfl, _, rfl, by decide⟩

/-- The hypotheses of `C99_nothing_made_up` for one request, with empty data before it; what is read is a message with nothing set, then the request. -/
example : ∃ p' q' os,
    sendSeq (wire ascii lib) near ([E2E.request 5 .ping].map (seen inOrder)) = some (p', [[34, 4, 8, 5, 16, 1, 5, 44, 1]]) ∧
    recvSeq (wire ascii lib) Props.Peers.pal far [⟨60, .empty, []⟩, ⟨60, .empty, [34, 4, 8, 5, 16, 1, 5, 44, 1]⟩] = some (q', os) ∧ Ready q' ∧
    os.map (readMsg ascii) = [some .unset, some (.request 5 .ping)] ∧
    NoForgery (wire ascii lib) (sealedBy (wire ascii lib) near ([E2E.request 5 .ping].map (seen inOrder)))
      (offered (wire ascii lib) Props.Peers.pal far [⟨60, .empty, []⟩, ⟨60, .empty, [34, 4, 8, 5, 16, 1, 5, 44, 1]⟩]) := by
  refine ⟨_, _, _, rfl, rfl, ⟨rfl, ⟨_, rfl⟩, ⟨_, rfl⟩⟩, rfl, ?_⟩
  have short : ∀ k (b : Bytes), b.length ≤ k → Noise.parts k b = [b] := by
    intro k b h; rw [Noise.parts, dif_pos (.inr h)]
  have hmx : Noise.maxMessage = 65535 := rfl
  have e1 : sealedBy (wire ascii lib) near ([E2E.request 5 .ping].map (seen inOrder)) =
      Props.Noise.calls 300 (Props.Noise.partsOf (Noise.maxMessage - 3) [34, 4, 8, 5, 16, 1]) ++ [] := rfl
  have e2 : offered (wire ascii lib) Props.Peers.pal far [⟨60, .empty, []⟩, ⟨60, .empty, [34, 4, 8, 5, 16, 1, 5, 44, 1]⟩] =
      (Props.Noise.calls 300 (Props.Noise.packetsOf Noise.maxMessage [34, 4, 8, 5, 16, 1, 5, 44, 1])).map (fun y => ((5 : Nat), y)) ++ [] := rfl
  rw [e1, e2]
  intro x hx pl hpl
  unfold Props.Noise.packetsOf at hx
  rw [if_neg (by simp), short _ _ (by rw [hmx]; decide)] at hx
  unfold Props.Noise.partsOf
  rw [short _ _ (by rw [hmx]; decide)]
  have hx : x ∈ ([((5 : Nat), 300, Noise.adFor true true, [34, 4, 8, 5, 16, 1, 5, 44, 1])] : List (Nat × Nat × Bytes × Bytes)) := hx
  obtain rfl := List.mem_singleton.mp hx
  cases hpl
  exact ⟨List.mem_cons_self, rfl⟩

end Svr.Props.PeerWire
