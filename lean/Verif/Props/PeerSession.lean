import Verif.Props.PeersTotal

/-!
# C53: messages between two enclaves arrive in order, through all changes of key

Both ends count messages in eight bits and change the key when the count returns to zero (enclave/peers/peers.cc:92-94, 138-140).
-/

namespace Svr.Props.PeerSession

open Svr.Peers
open Svr.Minimums (Limits Values)
open Props.Noise (calls partsOf packetsOf)
open Props.Peers (Sane)

variable {L : Lib}

/-- Data that arrives, with the clock and the minimums at that time. -/
structure Arrival where
  ts : Int
  lim : Limits
  data : Bytes

/-- A sender sends messages one after the other, each with success; what goes out. -/
def sendSeq (L : Lib) : Peer L → List Msg → Option (Peer L × List Bytes)
  | p, [] => some (p, [])
  | p, m :: t =>
    match send L m p with
    | .ok ⟨p', [.data c], none, _⟩ => (sendSeq L p' t).map fun x => (x.1, c :: x.2)
    | _ => none

/-- A receiver is given data; what it hands on for each. -/
def recvSeq (L : Lib) (id : Id) : Peer L → List Arrival → Option (Peer L × List (Option Msg))
  | q, [] => some (q, [])
  | q, x :: t =>
    match recv L id x.ts x.lim (.data x.data) q with
    | .ok r => (recvSeq L id r.peer t).map fun y => (y.1, r.decoded :: y.2)
    | _ => none

/-- What the sender's cipher seals in `sendSeq`: nonce, associated data, text. -/
def sealedBy (L : Lib) : Peer L → List Msg → List (Nat × Bytes × Bytes)
  | _, [] => []
  | p, m :: t =>
    match L.serMsg m, p.tx, send L m p with
    | some b, some c, .ok r => calls c.nonce (partsOf (Noise.maxMessage - (L.aead c.key).mac) b) ++ sealedBy L r.peer t
    | _, _, _ => []

/-- What the receiver's cipher is given to open in `recvSeq`: key, nonce, associated data, packet. -/
def offered (L : Lib) (id : Id) : Peer L → List Arrival → List (L.Key × Nat × Bytes × Bytes)
  | _, [] => []
  | q, x :: t =>
    match q.rx, recv L id x.ts x.lim (.data x.data) q with
    | some c, .ok r => (calls c.nonce (packetsOf Noise.maxMessage x.data)).map (fun y => (c.key, y)) ++ offered L id r.peer t
    | _, _ => []

/-- No forgery: what the receiver's cipher opens, it finds as the sender sealed it. -/
def NoForgery (L : Lib) (S : List (Nat × Bytes × Bytes)) (D : List (L.Key × Nat × Bytes × Bytes)) : Prop :=
  ∀ x ∈ D, ∀ p, (L.aead x.1).dec x.2.1 x.2.2.1 x.2.2.2 = some p →
    (x.2.1, x.2.2.1, p) ∈ S ∧ x.2.2.2 = (L.aead x.1).enc x.2.1 x.2.2.1 p

/-- Sender and receiver of one direction are in step: same key, nonce and count. -/
structure InStep (p q : Peer L) : Prop where
  tx : Ready p
  rx : Ready q
  cipher : p.tx = q.rx
  count : p.txRekey = q.rxRekey
  nonce : ∀ c, p.tx = some c → c.nonce ≤ Noise.lastNonce

/-- What arrives of a message: evidence is for the session itself. -/
def handed (L : Lib) (m : Msg) : Option Msg :=
  match L.serMsg m with
  | none => none
  | some b => match L.parseMsg b with
    | some (.update _) => none
    | r => r

theorem sendSeq_cons {p p' : Peer L} {m : Msg} {t : List Msg} {cs : List Bytes} (h : sendSeq L p (m :: t) = some (p', cs)) :
    ∃ r b c n ct cs', send L m p = .ok r ∧ L.serMsg m = some b ∧ p.tx = some c ∧ Ready p ∧
      Noise.encrypt (L.aead c.key) Noise.maxMessage true c.nonce b = .ok (n, some ct) ∧
      r.peer = { p with tx := some ⟨if p.txRekey + 1 = 0 then L.rekey c.key else c.key, n⟩, txRekey := p.txRekey + 1 } ∧
      sendSeq L r.peer t = some (p', cs') ∧ cs = ct :: cs' := by
  unfold sendSeq at h
  split at h
  · rename_i p1 ct d hs
    obtain ⟨⟨p2, cs'⟩, h1, h2⟩ := Option.map_eq_some_iff.mp h
    cases h2
    obtain ⟨-, h | ⟨-, -, h⟩ | ⟨h0, c, b, n, ct', hb, ht, he, hr, hc, -⟩⟩ := send_cases hs
    · cases h.2
    · cases h
    · cases hc
      exact ⟨_, b, c, n, ct, cs', hs, hb, ht, state_connected.mp h0, he, hr, h1, rfl⟩
  · cases h

theorem recvSeq_cons {id : Id} {q q' : Peer L} {x : Arrival} {t : List Arrival} {os : List (Option Msg)}
    (h : recvSeq L id q (x :: t) = some (q', os)) :
    ∃ r os', recv L id x.ts x.lim (.data x.data) q = .ok r ∧ recvSeq L id r.peer t = some (q', os') ∧ os = r.decoded :: os' := by
  unfold recvSeq at h
  split at h
  · rename_i r hr
    obtain ⟨⟨p2, os'⟩, h1, h2⟩ := Option.map_eq_some_iff.mp h
    cases h2
    exact ⟨r, os', hr, h1, rfl⟩
  · cases h

/-- Data never makes a connection. -/
theorem recvSeq_ready {id : Id} : ∀ {xs : List Arrival} {q q' : Peer L} {os : List (Option Msg)},
    recvSeq L id q xs = some (q', os) → Ready q' → Ready q
  | [], q, q', os, h, hr => by cases h; exact hr
  | x :: t, q, q', os, h, hr => by
    obtain ⟨r, os', h1, h2, -⟩ := recvSeq_cons h
    have hr1 := recvSeq_ready h2 hr
    rcases recv_data_cases h1 with h | ⟨h0, -⟩
    · exact absurd (state_connected.mpr hr1) (by rw [h.1]; decide)
    · exact state_connected.mp h0

theorem ready_tx {p : Peer L} (h : Ready p) (c : Cipher L) (k : UInt8) : Ready { p with tx := some c, txRekey := k } :=
  ⟨h.1, ⟨c, rfl⟩, h.2.2⟩

theorem calls_inj : ∀ {a b : List (Bool × Bytes)} {n : Nat}, calls n a = calls n b → a = b
  | [], [], _, _ => rfl
  | [], (_, _) :: _, _, h => by simp [calls] at h
  | (_, _) :: _, [], _, h => by simp [calls] at h
  | (x, y) :: s, (u, v) :: t, n, h => by
    simp only [calls, List.cons.injEq, Prod.mk.injEq, true_and] at h
    rw [Props.Noise.adFor_inj h.1.1, h.1.2, calls_inj h.2]

/-- What is opened under the sender's next nonce is sealed packets up to the end of a message. -/
theorem opened {A : Noise.Aead} (hA : A.Lawful) {mx : Nat} (hm : 0 < mx) {n n1 : Nat} {d pt : Bytes}
    {S : List (Nat × Bytes × Bytes)} {T : List (Bool × Bytes)} (hd : d ≠ [])
    (h : Noise.decrypt A mx true n d = .ok (n1, some pt))
    (hf : Props.Noise.NoForgery A S (calls n (packetsOf mx d)))
    (hS : ∀ x ∈ S, n ≤ x.1 → x ∈ calls n T) :
    ∃ ps, ps ≠ [] ∧ Noise.tag ps <+: T ∧ pt = ps.flatten ∧ n1 = n + ps.length ∧
      d = (Noise.sealAll A true n (Noise.tag ps)).flatten := by
  rw [Noise.decrypt_eq hA hm, if_neg hd] at h
  have hpk : packetsOf mx d = Noise.tag (Noise.parts mx d) := by unfold packetsOf; rw [if_neg hd]
  rw [hpk] at hf
  cases ho : Noise.openAll A mx true n (Noise.tag (Noise.parts mx d)) with
  | mk k o =>
    rw [ho] at h
    cases o with
    | none => cases h
    | some ps =>
      cases h
      obtain ⟨i1, i2, i3, i4⟩ := Props.Noise.accepted ho hf hS
      rw [Noise.tag_length] at i1 i2
      rw [Props.Noise.tag_zip i2] at i3 i4
      rw [Noise.tag_snd] at i4
      refine ⟨ps, ?_, i3, rfl, by rw [i1, i2], by rw [← i4, Noise.parts_flatten hm]⟩
      intro e
      rw [e] at i2
      exact Noise.parts_ne mx d (List.eq_nil_of_length_eq_zero i2.symm)

theorem sealedBy_cons {p : Peer L} {m : Msg} {t : List Msg} {b : Bytes} {c : Cipher L} {r : Ret L} (hb : L.serMsg m = some b)
    (hc : p.tx = some c) (hr : send L m p = .ok r) : sealedBy L p (m :: t) =
      calls c.nonce (partsOf (Noise.maxMessage - (L.aead c.key).mac) b) ++ sealedBy L r.peer t := by
  rw [sealedBy, hb, hc, hr]

theorem sealedBy_calls (hL : Sane L) : ∀ {ms : List Msg} {p p' : Peer L} {cs : List Bytes} {c : Cipher L},
    sendSeq L p ms = some (p', cs) → p.tx = some c → c.nonce ≤ Noise.lastNonce → ∃ T, sealedBy L p ms = calls c.nonce T
  | [], _, _, _, _, _, _, _ => ⟨[], rfl⟩
  | m :: t, p, p', cs, c, h, hc, hn => by
    obtain ⟨r, b, c', n, ct, cs', h1, h2, h3, -, h5, h6, h7, -⟩ := sendSeq_cons h
    obtain rfl : c' = c := by rw [h3] at hc; cases hc; rfl
    obtain ⟨l1, l2, l3⟩ := hL c'.key
    obtain ⟨a1, rfl, -⟩ := Props.Noise.encrypt_some l1 l3 l2 hn h5
    obtain ⟨T, hT⟩ := sealedBy_calls hL h7 (by rw [h6]) a1
    refine ⟨partsOf (Noise.maxMessage - (L.aead c'.key).mac) b ++ T, ?_⟩
    rw [sealedBy_cons h2 h3 h1, hT, Props.Noise.calls_append, partsOf, Noise.tag_length]

/-- The peers after one message are in step again. -/
theorem inStep_next {p q : Peer L} (h : InStep p q) {c : Cipher L} {n : Nat} (hn : n ≤ Noise.lastNonce)
    {la : Int} {mins : Values} {q1 : Peer L}
    (hq : q1 = { q with rx := some ⟨if q.rxRekey + 1 = 0 then L.rekey c.key else c.key, n⟩, rxRekey := q.rxRekey + 1,
                        lastAttestation := la, minimums := mins }) :
    InStep { p with tx := some ⟨if p.txRekey + 1 = 0 then L.rekey c.key else c.key, n⟩, txRekey := p.txRekey + 1 } q1 := by
  subst hq
  exact { tx := ⟨h.tx.1, ⟨_, rfl⟩, h.tx.2.2⟩
          rx := ⟨h.rx.1, h.rx.2.1, ⟨_, rfl⟩⟩
          cipher := by simp only [h.count]
          count := by simp only [h.count]
          nonce := by intro c' hc'; cases hc'; exact hn }

/-- What the receiver hands on of a message that opens to `b`. -/
theorem decoded_of {id : Id} {x : Arrival} {q : Peer L} {r : Ret L} (h : recv L id x.ts x.lim (.data x.data) q = .ok r)
    (hr : Ready r.peer) : ∃ c n pt, q.rx = some c ∧ Ready q ∧
      Noise.decrypt (L.aead c.key) Noise.maxMessage true c.nonce x.data = .ok (n, some pt) ∧
      (∃ la mins, r.peer = { q with rx := some ⟨if q.rxRekey + 1 = 0 then L.rekey c.key else c.key, n⟩, rxRekey := q.rxRekey + 1,
                                    lastAttestation := la, minimums := mins }) ∧
      r.decoded = (match L.parseMsg pt with | some (.update _) => none | o => o) := by
  rcases recv_data_cases h with h | ⟨h0, c, n, pt, hx, hd, -, hcase⟩
  · exact absurd (state_connected.mpr hr) (by rw [h.1]; decide)
  · refine ⟨c, n, pt, hx, state_connected.mp h0, hd, ?_⟩
    rcases hcase with ⟨e1, e2, e3⟩ | ⟨ev, vals, e1, -, e3, e4⟩ | ⟨m, e1, e2, e3, e4⟩
    · exact ⟨⟨_, _, e2⟩, by rw [e1, e3]⟩
    · exact ⟨⟨_, _, e4⟩, by rw [e1, e3]⟩
    · refine ⟨⟨_, _, e4⟩, ?_⟩
      rw [e1, e3]
      cases m with
      | update ev => exact absurd rfl (e2 ev)
      | _ => rfl

/-- **C53**, for data that is not empty: as long as the session lasts, what a receiver was given is a beginning of what the
sender sent, and what it handed on is these messages, in order, once each and unaltered, through all changes of key; when it
has all of them, both ends are in step. `old` is what was sealed before. -/
theorem C53_in_order_partial (hL : Sane L) {id : Id} : ∀ (xs : List Arrival) {ms : List Msg} {p p' q q' : Peer L}
    {cs : List Bytes} {os : List (Option Msg)} {old : List (Nat × Bytes × Bytes)},
    InStep p q → sendSeq L p ms = some (p', cs) → recvSeq L id q xs = some (q', os) → Ready q' →
    (∀ x ∈ xs, x.data ≠ []) → (∀ c, p.tx = some c → ∀ x ∈ old, x.1 < c.nonce) →
    NoForgery L (old ++ sealedBy L p ms) (offered L id q xs) →
    xs.map (·.data) <+: cs ∧ os = (ms.take xs.length).map (handed L) ∧ (xs.length = ms.length → InStep p' q')
  | [], ms, p, p', q, q', cs, os, old, hi, hs, hr, _, _, _, _ => by
    cases hr
    refine ⟨List.nil_prefix, by simp, fun h => ?_⟩
    obtain rfl := List.eq_nil_of_length_eq_zero h.symm
    cases hs
    exact hi
  | x :: xs, ms, p, p', q, q', cs, os, old, hi, hs, hr, hq, hne, ho, hf => by
    obtain ⟨r, os', h1, h2, rfl⟩ := recvSeq_cons hr
    have hr1 := recvSeq_ready h2 hq
    obtain ⟨c, n, pt, hx, -, hd, ⟨la, mins, hp⟩, hdec⟩ := decoded_of h1 hr1
    obtain ⟨l1, l2, l3⟩ := hL c.key
    have htx : p.tx = some c := by rw [hi.cipher, hx]
    have hn := hi.nonce c htx
    obtain ⟨T, hT⟩ := sealedBy_calls hL hs htx hn
    have hof : offered L id q (x :: xs) =
        (calls c.nonce (packetsOf Noise.maxMessage x.data)).map (fun y => (c.key, y)) ++ offered L id r.peer xs := by
      rw [offered, hx, h1]
    rw [hof] at hf
    obtain ⟨ps, hps, hpre, hpt, hn1, hdat⟩ := opened l1 (by omega) (hne x List.mem_cons_self) hd
      (S := old ++ sealedBy L p ms) (T := T)
      (fun y hy pl hpl => hf _ (List.mem_append_left _ (List.mem_map_of_mem (f := fun y => (c.key, y)) hy)) pl hpl)
      (by
        intro y hy hl
        rcases List.mem_append.mp hy with e | e
        · have := ho c htx y e; omega
        · rw [hT] at e; exact e)
    match ms, hs with
    | [], hs =>
      exfalso
      have hT0 : calls c.nonce T = [] := hT.symm
      have : T = [] := by
        cases T with
        | nil => rfl
        | cons a l => cases a; simp [calls] at hT0
      subst this
      exact Noise.tag_ne hps (List.prefix_nil.mp hpre)
    | m :: ms, hs =>
      obtain ⟨r', b, c', n', ct, cs', g1, g2, g3, -, g5, g6, g7, rfl⟩ := sendSeq_cons hs
      obtain rfl : c' = c := by rw [g3] at htx; cases htx; rfl
      obtain ⟨a1, rfl, a3⟩ := Props.Noise.encrypt_some l1 l3 l2 hn g5
      obtain ⟨T', hT'⟩ := sealedBy_calls hL g7 (by rw [g6]) a1
      have hc2 := sealedBy_cons (t := ms) g2 g3 g1
      have hpre' : Noise.tag ps <+: Noise.tag (Noise.parts (Noise.maxMessage - (L.aead c'.key).mac) b) ++ T' := by
        have e : calls c'.nonce T = calls c'.nonce (Noise.tag (Noise.parts (Noise.maxMessage - (L.aead c'.key).mac) b) ++ T') := by
          rw [← hT, hc2, hT', Props.Noise.calls_append, partsOf, Noise.tag_length]
        rw [← calls_inj e]
        exact hpre
      have e := Props.Noise.tag_prefix hps (Noise.parts_ne _ _) hpre'
      subst e
      rw [Noise.parts_flatten (by omega)] at hpt
      subst hpt
      obtain rfl := hn1
      have hin := inStep_next hi a1 hp
      rw [← g6] at hin
      obtain ⟨k1, k2, k3⟩ := C53_in_order_partial hL xs (old := old ++ calls c'.nonce (partsOf (Noise.maxMessage - (L.aead c'.key).mac) pt))
        hin g7 h2 hq (fun y hy => hne y (List.mem_cons_of_mem _ hy))
        (by
          intro c2 hc2 y hy
          rw [g6] at hc2
          cases hc2
          rcases List.mem_append.mp hy with e | e
          · have := ho c' htx y e; simp only; omega
          · have := Props.Noise.calls_lt e; rw [partsOf, Noise.tag_length] at this; exact this)
        (by
          intro y hy pl hpl
          have := hf y (List.mem_append_right _ hy) pl hpl
          rw [hc2, ← List.append_assoc] at this
          exact this)
      refine ⟨?_, ?_, fun hl => k3 (by simpa using hl)⟩
      · rw [List.map_cons, hdat, ← a3]
        exact List.cons_prefix_cons.mpr ⟨rfl, k1⟩
      · rw [k2, List.length_cons, List.take_succ_cons, List.map_cons, hdec, handed, g2]

/-- **C53**: what was sent and is carried to the receiver arrives: every message is handed on, and both ends stay in step.
Evidence among the messages must be good when it arrives. -/
theorem C53_delivered (hL : Sane L) {id : Id} : ∀ (ms : List Msg) {xs : List Arrival} {p p' q : Peer L} {cs : List Bytes},
    InStep p q → sendSeq L p ms = some (p', cs) → xs.map (·.data) = cs →
    (∀ m ∈ ms, ∀ b ev, L.serMsg m = some b → L.parseMsg b = some (.update ev) → ∀ x ∈ xs, ∃ vals,
      L.attest x.ts ev = some (id, vals) ∧ Meets x.lim vals) →
    ∃ q', recvSeq L id q xs = some (q', ms.map (handed L)) ∧ InStep p' q'
  | [], xs, p, p', q, cs, hi, hs, hx, _ => by
    cases hs
    obtain rfl := List.map_eq_nil_iff.mp hx
    exact ⟨q, rfl, hi⟩
  | m :: ms, xs, p, p', q, cs, hi, hs, hx, hev => by
    obtain ⟨r, b, c, n, ct, cs', g1, g2, g3, -, g5, g6, g7, rfl⟩ := sendSeq_cons hs
    match xs, hx with
    | x :: xs, hx =>
      simp only [List.map_cons, List.cons.injEq] at hx
      obtain ⟨l1, l2, l3⟩ := hL c.key
      have hn := hi.nonce c g3
      obtain ⟨a1, rfl, a3⟩ := Props.Noise.encrypt_some l1 l3 l2 hn g5
      have hd := Props.Noise.decrypt_sealed l1 l3 l2 true b a1
      rw [← a3, ← hx.1] at hd
      have hrx : q.rx = some c := by rw [← hi.cipher, g3]
      have key : ∃ r1, recv L id x.ts x.lim (.data x.data) q = .ok r1 ∧ r1.decoded = handed L m ∧ Ready r1.peer := by
        have rdy : ∀ k v l mn, Ready ({ q with rx := some k, rxRekey := v, lastAttestation := l, minimums := mn } : Peer L) :=
          fun k v l mn => ⟨hi.rx.1, hi.rx.2.1, ⟨k, rfl⟩⟩
        simp only [recv]
        rw [if_neg (by rw [state_connected.mpr hi.rx]; decide), hrx]
        simp only
        rw [hd]
        simp only [Out.bind_ok, handed, g2]
        cases hpm : L.parseMsg b with
        | none => exact ⟨_, rfl, rfl, rdy _ _ _ _⟩
        | some o =>
          cases o with
          | connected => exact ⟨_, rfl, rfl, rdy _ _ _ _⟩
          | other body => exact ⟨_, rfl, rfl, rdy _ _ _ _⟩
          | update ev =>
            obtain ⟨vals, h1, h2⟩ := hev m List.mem_cons_self b ev g2 hpm x List.mem_cons_self
            simp only [checkNextAttestation, h1]
            rw [if_neg (by simp)]
            rw [checkValues_none.mpr h2]
            exact ⟨_, rfl, rfl, rdy _ _ _ _⟩
      obtain ⟨r1, h1, h2, h3⟩ := key
      obtain ⟨c', n', pt, k1, -, k3, ⟨la, mins, k4⟩, -⟩ := decoded_of h1 h3
      rw [hrx] at k1; cases k1
      rw [hd] at k3; cases k3
      have hin := inStep_next hi a1 k4
      rw [← g6] at hin
      obtain ⟨q', j1, j2⟩ := C53_delivered hL ms hin g7 hx.2
        (fun m' hm' b' ev hb' hp' y hy => hev m' (List.mem_cons_of_mem _ hm') b' ev hb' hp' y (List.mem_cons_of_mem _ hy))
      refine ⟨q', ?_, j2⟩
      rw [recvSeq, h1]
      simp only
      rw [j1, List.map_cons, h2]
      rfl

/-! ## Empty data -/

/-- An empty message from the host: decrypted without a key, counted, and handed on. -/
theorem recv_empty {id : Id} {x : Arrival} (hx : x.data = []) {q : Peer L} (hq : Ready q) {c : Cipher L} (hc : q.rx = some c) {b : Bytes}
    (hp : L.parseMsg [] = some (.other b)) : recv L id x.ts x.lim (.data x.data) q =
      .ok ⟨{ q with rx := some ⟨if q.rxRekey + 1 = 0 then L.rekey c.key else c.key, c.nonce⟩, rxRekey := q.rxRekey + 1 }, [], none, some (.other b)⟩ := by
  simp only [recv]
  rw [if_neg (by rw [state_connected.mpr hq]; decide), hc, hx]
  simp only [Props.Noise.C45_empty_accepted, Out.bind_ok, hp]

/-- **C53 is false for empty data**: the host can make a receiver hand on a message that nobody sent. Every other
hypothesis of `C53_in_order_partial` holds, with any libraries for which no bytes are a message with nothing set. -/
theorem C53_empty_injected {id : Id} (ts : Int) (lim : Limits) {p q : Peer L} (hi : InStep p q) {b : Bytes}
    (hp : L.parseMsg [] = some (.other b)) :
    sendSeq L p [] = some (p, []) ∧ NoForgery L (sealedBy L p []) (offered L id q [⟨ts, lim, []⟩]) ∧
    ∃ q', recvSeq L id q [⟨ts, lim, []⟩] = some (q', [some (.other b)]) ∧ Ready q' := by
  obtain ⟨c, hc⟩ := hi.rx.2.2
  have h := recv_empty (id := id) (x := ⟨ts, lim, []⟩) rfl hi.rx hc hp
  refine ⟨rfl, ?_, ?_⟩
  · intro y hy
    rw [offered, hc, h] at hy
    simp [packetsOf, calls, offered] at hy
  · refine ⟨_, by rw [recvSeq, h]; rfl, ?_⟩
    exact ⟨hi.rx.1, hi.rx.2.1, ⟨_, rfl⟩⟩

/-- Each empty message counts, so the host can bring the receiver to its next key while the sender stays with the old one:
with count `k`, it takes `256 - k` of them. -/
theorem C53_empty_changes_key {id : Id} (ts : Int) (lim : Limits) {b : Bytes} (hp : L.parseMsg [] = some (.other b)) :
    ∀ (j : Nat) {q : Peer L} {c : Cipher L}, Ready q → q.rx = some c → j + 1 = 256 - q.rxRekey.toNat →
    ∃ q' os, recvSeq L id q (List.replicate (j + 1) ⟨ts, lim, []⟩) = some (q', os) ∧ Ready q' ∧
      q'.rx = some ⟨L.rekey c.key, c.nonce⟩ ∧ q'.rxRekey = 0
  | 0, q, c, hq, hc, hj => by
    have h := recv_empty (id := id) (x := ⟨ts, lim, []⟩) rfl hq hc hp
    have hk : q.rxRekey + 1 = 0 := by
      apply UInt8.toNat_inj.mp
      rw [UInt8.toNat_add]
      have := UInt8.toNat_lt q.rxRekey
      have e : (1 : UInt8).toNat = 1 := rfl
      rw [e, show q.rxRekey.toNat = 255 by omega]; rfl
    rw [hk, if_pos rfl] at h
    refine ⟨_, _, by show recvSeq L id q [⟨ts, lim, []⟩] = _; rw [recvSeq, h]; rfl, ?_⟩
    exact ⟨⟨hq.1, hq.2.1, ⟨_, rfl⟩⟩, rfl, rfl⟩
  | j + 1, q, c, hq, hc, hj => by
    have h := recv_empty (id := id) (x := ⟨ts, lim, []⟩) rfl hq hc hp
    have e : (q.rxRekey + 1).toNat = q.rxRekey.toNat + 1 := by
      rw [UInt8.toNat_add]
      have e : (1 : UInt8).toNat = 1 := rfl
      rw [e]; omega
    have hk : ¬ q.rxRekey + 1 = 0 := by
      intro h0; rw [h0] at e; cases e
    rw [if_neg hk] at h
    obtain ⟨q', os, h1, h2, h3, h4⟩ := C53_empty_changes_key (id := id) ts lim hp j
      (q := { q with rx := some ⟨c.key, c.nonce⟩, rxRekey := q.rxRekey + 1 }) (c := ⟨c.key, c.nonce⟩)
      ⟨hq.1, hq.2.1, ⟨_, rfl⟩⟩ rfl (by simp only [e]; omega)
    refine ⟨q', some (.other b) :: os, ?_, h2, h3, h4⟩
    rw [List.replicate_succ, recvSeq, h]
    simp only
    rw [h1]; rfl

/-! ## Concrete cases -/

/-- A cipher for examples that shows its key, its nonce and the associated data. -/
def marked (k : Nat) : Noise.Aead where
  mac := 3
  enc n ad p := p ++ [UInt8.ofNat k, UInt8.ofNat n, ad.getLast?.getD 7]
  dec n ad c := if 3 ≤ c.length ∧ c.drop (c.length - 3) = [UInt8.ofNat k, UInt8.ofNat n, ad.getLast?.getD 7] then some (c.take (c.length - 3)) else none

theorem marked_lawful (k : Nat) : (marked k).Lawful where
  len n ad p := by simp [marked]
  declen n ad c p h := by
    simp only [marked] at h ⊢
    split at h
    · rename_i hc
      cases h
      rw [List.length_take]; omega
    · cases h
  dec n ad p := by simp [marked]

def keyed : Lib := { Props.Peers.toy with aead := marked }

theorem keyed_sane : Sane keyed := fun k => ⟨marked_lawful k, (by decide : 0 < 3), (by decide : 3 < Noise.maxMessage)⟩

/-- A session 255 messages old in one direction: the next message changes the key. -/
def near : Peer keyed :=
  { handshake := none, tx := some ⟨(5 : Nat), 300⟩, txRekey := 255, rx := some ⟨(6 : Nat), 9⟩, rxRekey := 9, lastAttestation := 50,
    minimums := .empty }

def far : Peer keyed :=
  { handshake := none, tx := some ⟨(6 : Nat), 9⟩, txRekey := 9, rx := some ⟨(5 : Nat), 300⟩, rxRekey := 255, lastAttestation := 50,
    minimums := .empty }

theorem near_far : InStep near far where
  tx := ⟨rfl, ⟨_, rfl⟩, ⟨_, rfl⟩⟩
  rx := ⟨rfl, ⟨_, rfl⟩, ⟨_, rfl⟩⟩
  cipher := rfl
  count := rfl
  nonce := by intro c hc; cases hc; decide

/-- Three messages, the second with new evidence; the key changes after the first. -/
def three : List Msg := [.other [1, 2], .update (4 :: Props.Peers.pal), .other [3]]

def threeData : List Bytes := [[1, 2, 5, 44, 1], 0 :: 4 :: Props.Peers.pal ++ [7, 45, 1], [3, 7, 46, 1]]

def carried : List Arrival := threeData.map fun d => ⟨60, .empty, d⟩

example : (sendSeq keyed near three).map (·.2) = some threeData := by decide +kernel

example : (recvSeq keyed Props.Peers.pal far carried).map (·.2) = some [some (.other [1, 2]), none, some (.other [3])] := by
  decide +kernel

/-- After one injected empty message the same data is refused: the receiver has changed its key too early. -/
example : (recvSeq keyed Props.Peers.pal far (⟨60, .empty, []⟩ :: carried)).map (·.2) = some [some (.other []), none, none, none] := by
  decide +kernel

/-- The hypotheses of `C53_in_order_partial` for the first two of the three messages. -/
example : ∃ p' q' os, sendSeq keyed near three = some (p', threeData) ∧
    recvSeq keyed Props.Peers.pal far (carried.take 2) = some (q', os) ∧ Ready q' ∧ (∀ x ∈ carried.take 2, x.data ≠ []) ∧
    NoForgery keyed (sealedBy keyed near three) (offered keyed Props.Peers.pal far (carried.take 2)) := by
  refine ⟨_, _, _, rfl, rfl, ⟨rfl, ⟨_, rfl⟩, ⟨_, rfl⟩⟩, by decide, ?_⟩
  have short : ∀ k (b : Bytes), b.length ≤ k → Noise.parts k b = [b] := by
    intro k b h; rw [Noise.parts, dif_pos (.inr h)]
  have hmx : Noise.maxMessage = 65535 := rfl
  have e1 : sealedBy keyed near three = calls 300 (partsOf (Noise.maxMessage - 3) [1, 2]) ++
      (calls 301 (partsOf (Noise.maxMessage - 3) (0 :: 4 :: Props.Peers.pal)) ++ (calls 302 (partsOf (Noise.maxMessage - 3) [3]) ++ [])) := rfl
  have e2 : offered keyed Props.Peers.pal far (carried.take 2) =
      (calls 300 (packetsOf Noise.maxMessage [1, 2, 5, 44, 1])).map (fun y => ((5 : Nat), y)) ++
      ((calls 301 (packetsOf Noise.maxMessage (0 :: 4 :: Props.Peers.pal ++ [7, 45, 1]))).map (fun y => ((7 : Nat), y)) ++ []) := rfl
  have hl : ∀ t : Bytes, (0 :: 4 :: Props.Peers.pal ++ t).length = 34 + t.length := by
    intro t; simp [Props.Peers.pal]; omega
  have hl0 := hl []
  rw [List.append_nil] at hl0
  rw [e1, e2]
  intro x hx pl hpl
  unfold packetsOf at hx
  rw [if_neg (by simp), if_neg (by simp), short _ _ (by rw [hmx]; decide), short _ _ (by rw [hl, hmx]; decide)] at hx
  unfold partsOf
  rw [short _ _ (by rw [hmx]; decide), short _ _ (by rw [hl0, hmx]; decide), short _ _ (by rw [hmx]; decide)]
  have hx : x ∈ ([((5 : Nat), 300, Noise.adFor true true, [1, 2, 5, 44, 1]),
      (7, 301, Noise.adFor true true, 0 :: 4 :: Props.Peers.pal ++ [7, 45, 1])] : List (Nat × Nat × Bytes × Bytes)) := hx
  have hx := (List.mem_cons.mp hx).imp_right List.mem_singleton.mp
  rcases hx with rfl | rfl
  · simp [keyed, marked, Noise.adFor] at hpl
    subst hpl
    simp [calls, Noise.tag, keyed, marked, Noise.adFor]
  · have : (marked 7).dec 301 (Noise.adFor true true) ((marked 7).enc 301 (Noise.adFor true true) (0 :: 4 :: Props.Peers.pal)) = some pl := hpl
    rw [(marked_lawful 7).dec] at this
    cases this
    refine ⟨?_, rfl⟩
    simp [calls, Noise.tag]

end Svr.Props.PeerSession
