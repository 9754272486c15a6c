import Verif.Peers
import Verif.Props.Noise
import Verif.Spec.Attested

/-! # Facts about single calls on a peer -/

namespace Svr.Peers

open Minimums (Limits Values)

variable {L : Lib}

theorem state_connected {p : Peer L} : p.state = .connected ↔ Ready p := by
  unfold Peer.state Ready
  rcases p with ⟨h, tx, _, rx, _, _, _⟩
  cases h <;> cases tx <;> cases rx <;> simp

theorem state_connecting {p : Peer L} : p.state = .connecting ↔ ∃ h, p.handshake = some h := by
  unfold Peer.state
  rcases p with ⟨h, tx, _, rx, _, _, _⟩
  cases h <;> cases tx <;> cases rx <;> simp

@[simp] theorem drop_state (p : Peer L) : p.drop.state = .disconnected := rfl
@[simp] theorem new_state : (Peer.new : Peer L).state = .disconnected := rfl

/-- Evidence that the model accepts. -/
def Ok (L : Lib) (id : Id) (ts : Int) (lim : Limits) (ev : Bytes) (vals : Values) : Prop :=
  ∃ pub, L.attest ts ev = some (pub, vals) ∧ (pub = id ∨ toKey pub = some id) ∧ Minimums.checkValues lim vals = none

theorem checkValues_none {lim : Limits} {vals : Values} : Minimums.checkValues lim vals = none ↔ Meets lim vals := by
  unfold Minimums.checkValues
  rw [List.findSome?_eq_none_iff]
  have key : ∀ p : Bytes × Bytes, Minimums.checkValueAgainstSet lim p = none ↔
      ∀ b, lim.find p.1 = some b → p.2.length = b.length ∧ Props.Minimums.value b ≤ Props.Minimums.value p.2 := by
    intro p
    unfold Minimums.checkValueAgainstSet
    cases lim.find p.1 with
    | none => simp
    | some b =>
      simp only [Option.some.injEq, forall_eq']
      by_cases hl : p.2.length = b.length
      · have hv := Props.Minimums.lex_value p.2 b hl
        by_cases hg : p.2 < b
        · rw [if_pos hg]; have := hv.mp hg; simp; omega
        · rw [if_neg hg, if_neg (by simpa using hl)]
          have : ¬ Props.Minimums.value p.2 < Props.Minimums.value b := fun h => hg (hv.mpr h)
          simp [hl]; omega
      · by_cases hg : p.2 < b
        · rw [if_pos hg]; simp [hl]
        · rw [if_neg hg, if_pos hl]; simp [hl]
  constructor
  · intro h k b v hb hv
    exact (key (k, v)).mp (h _ (OMap.mem_list.mpr hv)) b hb
  · intro h p hp
    exact (key p).mpr fun b hb => h p.1 b p.2 hb (OMap.mem_list.mp hp)

theorem Ok.vouched {id : Id} {ts : Int} {lim : Limits} {ev : Bytes} {vals : Values} (h : Ok L id ts lim ev vals) :
    Vouched L id ts lim ev vals := by
  obtain ⟨pub, ha, hk, hm⟩ := h
  refine ⟨pub, ha, ?_, checkValues_none.mp hm⟩
  rcases hk with rfl | hk
  · exact ⟨0, by simp⟩
  · unfold toKey at hk
    split at hk
    · cases hk
    · cases hk; exact ⟨_, rfl⟩

theorem reset_fields {id : Id} {priv : L.Priv} {role : Role} {p q : Peer L} {e : Option Err} (h : reset L id priv role p = (q, e)) :
    q.tx = none ∧ q.rx = none := by
  unfold reset at h
  split at h <;> (cases h; exact ⟨rfl, rfl⟩)

theorem reset_none {id : Id} {priv : L.Priv} {role : Role} {p q : Peer L} (h : reset L id priv role p = (q, none)) :
    ∃ hs, L.new role priv id = .ok hs ∧ q = { p.drop with handshake := some hs } := by
  unfold reset at h
  split at h
  · cases h
  · cases h; exact ⟨_, ‹_›, rfl⟩

/-- A call that starts a connection ends without one. -/
theorem internalConnect_off {id : Id} {priv : L.Priv} {att rnd : Bytes} {p : Peer L} {r : Ret L}
    (h : internalConnect L id priv att rnd p = .ok r) : r.peer.tx = none ∧ r.peer.rx = none ∧ r.decoded = none := by
  unfold internalConnect at h
  cases hr : reset L id priv .initiator p with
  | mk q e =>
    obtain ⟨h1, h2⟩ := reset_fields hr
    rw [hr] at h
    cases e with
    | some e => cases h; exact ⟨h1, h2, rfl⟩
    | none =>
      simp only [fail] at h
      repeat' split at h
      all_goals first | (cases h; done) | (cases h; exact ⟨h1, h2, rfl⟩)

theorem accept_cases {id : Id} {ts : Int} {lim : Limits} {priv : L.Priv} {att syn rnd : Bytes} {p : Peer L} {r : Ret L}
    (h : accept L id ts lim priv att syn rnd p = .ok r) :
    (r.peer.state = .disconnected ∧ r.decoded = none ∧ r.sent = []) ∨
    ∃ ev hs h0 h1 h2 out k1 k2 vals, L.parseConn syn = some (ev, hs) ∧ Ok L id ts lim ev vals ∧ L.new .responder priv id = .ok h0 ∧
      L.read h0 hs = some h1 ∧ L.write h1 rnd = some (h2, out) ∧ L.split h2 = some (k1, k2) ∧
      r.peer = ⟨none, some ⟨k1, 0⟩, 0, some ⟨k2, 0⟩, 0, ts, vals⟩ ∧ r.decoded = some .connected := by
  unfold accept at h
  cases hr : reset L id priv .responder p with
  | mk q e =>
    obtain ⟨h1, h2⟩ := reset_fields hr
    rw [hr] at h
    cases e with
    | some e =>
      cases h
      unfold reset at hr
      split at hr
      · cases hr; exact .inl ⟨rfl, rfl, rfl⟩
      · cases hr
    | none =>
      obtain ⟨h0, hn, rfl⟩ := reset_none hr
      simp only [fail] at h
      split at h
      · cases h; exact .inl ⟨rfl, rfl, rfl⟩
      split at h
      · cases h; exact .inl ⟨rfl, rfl, rfl⟩
      rename_i ev hs hp
      split at h
      · cases h; exact .inl ⟨rfl, rfl, rfl⟩
      rename_i pub vals ha
      split at h
      · cases h; exact .inl ⟨rfl, rfl, rfl⟩
      rename_i hk
      split at h
      · cases h; exact .inl ⟨rfl, rfl, rfl⟩
      rename_i hm
      split at h
      · cases h; exact .inl ⟨rfl, rfl, rfl⟩
      rename_i hr'
      split at h
      · cases h; exact .inl ⟨rfl, rfl, rfl⟩
      split at h
      · cases h; exact .inl ⟨rfl, rfl, rfl⟩
      rename_i hw
      split at h
      · cases h; exact .inl ⟨rfl, rfl, rfl⟩
      split at h
      · cases h; exact .inl ⟨rfl, rfl, rfl⟩
      split at h
      · cases h; exact .inl ⟨rfl, rfl, rfl⟩
      rename_i hs'
      cases h
      exact .inr ⟨_, _, _, _, _, _, _, _, _, hp, ⟨pub, ha, .inl (by simpa using hk), hm⟩, hn, hr', hw, hs', rfl, rfl⟩

theorem finish_cases {id : Id} {ts : Int} {lim : Limits} {synack : Bytes} {p : Peer L} {r : Ret L}
    (h : finishConnection L id ts lim synack p = .ok r) (he : r.err = none) :
    ∃ ev hs h0 h1 k1 k2 vals, p.handshake = some h0 ∧ L.parseConn synack = some (ev, hs) ∧ Ok L id ts lim ev vals ∧
      L.read h0 hs = some h1 ∧ L.split h1 = some (k1, k2) ∧
      r.peer = ⟨none, some ⟨k1, 0⟩, 0, some ⟨k2, 0⟩, 0, ts, vals⟩ ∧ r.decoded = some .connected ∧ r.sent = [] := by
  unfold finishConnection at h
  simp only [fail] at h
  split at h
  · cases h
  rename_i hh
  split at h
  · cases h; cases he
  split at h
  · cases h; cases he
  rename_i hp
  split at h
  · cases h; cases he
  rename_i pub vals ha
  split at h
  · cases h; cases he
  rename_i key hk
  split at h
  · cases h; cases he
  rename_i hi
  split at h
  · cases h; cases he
  rename_i hm
  split at h
  · cases h; cases he
  rename_i hr
  split at h
  · cases h; cases he
  split at h
  · cases h; cases he
  rename_i hs
  cases h
  have : key = id := by simpa using hi
  subst this
  exact ⟨_, _, _, _, _, _, _, hh, hp, ⟨pub, ha, .inr hk, hm⟩, hr, hs, rfl, rfl, rfl⟩

theorem next_cases {id : Id} {ts : Int} {lim : Limits} {ev : Bytes} {p q : Peer L}
    (h : checkNextAttestation L id ts lim ev p = (q, none)) :
    ∃ vals, Ok L id ts lim ev vals ∧ q = { p with lastAttestation := ts, minimums := vals } := by
  unfold checkNextAttestation at h
  split at h
  · cases h
  rename_i pub vals ha
  split at h
  · cases h
  rename_i hi
  split at h
  · cases h
  rename_i hm
  cases h
  exact ⟨vals, ⟨pub, ha, .inl (by simpa using hi), hm⟩, rfl⟩

/-- The same session, further on: only nonces, keys and their counters moved. -/
structure SameSession (p q : Peer L) : Prop where
  was : p.state = .connected
  last : q.lastAttestation = p.lastAttestation
  mins : q.minimums = p.minimums

theorem send_cases {msg : Msg} {p : Peer L} {r : Ret L} (h : send L msg p = .ok r) : r.decoded = none ∧
    ((r.peer = p ∧ r.sent = []) ∨ (p.state = .connected ∧ r.peer.state = .disconnected ∧ r.sent = [.rst]) ∨
    (p.state = .connected ∧ ∃ c b n ct, L.serMsg msg = some b ∧ p.tx = some c ∧
      Noise.encrypt (L.aead c.key) Noise.maxMessage true c.nonce b = .ok (n, some ct) ∧
      r.peer = { p with tx := some ⟨if p.txRekey + 1 = 0 then L.rekey c.key else c.key, n⟩, txRekey := p.txRekey + 1 } ∧
      r.sent = [.data ct] ∧ r.err = none)) := by
  unfold send at h
  split at h
  · cases h; exact ⟨rfl, .inl ⟨rfl, rfl⟩⟩
  rename_i hc
  have hc : p.state = .connected := by simpa using hc
  split at h
  · cases h; exact ⟨rfl, .inl ⟨rfl, rfl⟩⟩
  · cases h
  rename_i b c hs ht
  obtain ⟨⟨n, o⟩, he, h⟩ := Out.bind_eq_ok.mp h
  cases o with
  | none => cases h; exact ⟨rfl, .inr (.inl ⟨hc, rfl, rfl⟩)⟩
  | some ct => cases h; exact ⟨rfl, .inr (.inr ⟨hc, c, b, n, ct, hs, ht, he, rfl, rfl, rfl⟩)⟩

theorem recv_data_cases {id : Id} {ts : Int} {lim : Limits} {ct : Bytes} {p : Peer L} {r : Ret L}
    (h : recv L id ts lim (.data ct) p = .ok r) :
    (r.peer.state = .disconnected ∧ r.decoded = none ∧ r.sent = [.rst]) ∨
    (p.state = .connected ∧ ∃ c n pt, p.rx = some c ∧
      Noise.decrypt (L.aead c.key) Noise.maxMessage true c.nonce ct = .ok (n, some pt) ∧ r.sent = [] ∧
      let q : Peer L := { p with rx := some ⟨if p.rxRekey + 1 = 0 then L.rekey c.key else c.key, n⟩, rxRekey := p.rxRekey + 1 }
      ((L.parseMsg pt = none ∧ r.peer = q ∧ r.decoded = none) ∨
       (∃ ev vals, L.parseMsg pt = some (.update ev) ∧ Ok L id ts lim ev vals ∧ r.decoded = none ∧
          r.peer = { q with lastAttestation := ts, minimums := vals }) ∨
       (∃ m, L.parseMsg pt = some m ∧ (∀ ev, m ≠ .update ev) ∧ r.decoded = some m ∧ r.peer = q))) := by
  unfold recv at h
  simp only at h
  split at h
  · cases h; exact .inl ⟨rfl, rfl, rfl⟩
  rename_i hc
  have hc : p.state = .connected := by simpa using hc
  split at h
  · cases h
  rename_i c hx
  obtain ⟨⟨n, o⟩, hd, h⟩ := Out.bind_eq_ok.mp h
  cases o with
  | none => cases h; exact .inl ⟨rfl, rfl, rfl⟩
  | some pt =>
    simp only at h
    split at h
    · rename_i hp
      cases h
      exact .inr ⟨hc, c, n, pt, hx, hd, rfl, .inl ⟨hp, rfl, rfl⟩⟩
    · rename_i ev hp
      split at h
      · cases h; exact .inl ⟨rfl, rfl, rfl⟩
      · rename_i q' hq
        cases h
        obtain ⟨vals, hv, rfl⟩ := next_cases hq
        exact .inr ⟨hc, c, n, pt, hx, hd, rfl, .inr (.inl ⟨ev, vals, hp, hv, rfl, rfl⟩)⟩
    · rename_i m hm hp
      cases h
      exact .inr ⟨hc, c, n, pt, hx, hd, rfl, .inr (.inr ⟨m, hp, hm, rfl, rfl⟩)⟩

theorem connect_state {q : Peer L} (h : q.tx = none) : q.state ≠ .connected := by
  intro hc
  obtain ⟨-, ⟨c, hc⟩, -⟩ := state_connected.mp hc
  rw [h] at hc; cases hc

/-- After any call, a connected peer was connected before and its attestation is the same, or the call accepted evidence. -/
theorem exec_connected {id : Id} {ts : Int} {lim : Limits} {rnd : Bytes} {p : Peer L} {op : Op L} {r : Ret L}
    (h : exec L id ts lim rnd p op = .ok r) (hc : r.peer.state = .connected) :
    SameSession p r.peer ∨
    ∃ ev, Presents L p op ev ∧ Ok L id ts lim ev r.peer.minimums ∧ r.peer.lastAttestation = ts := by
  cases op with
  | connect priv att => exact absurd hc (connect_state (internalConnect_off h).1)
  | maybeConnect priv att =>
    simp only [exec, maybeConnect] at h
    split at h
    · cases h; exact .inl ⟨hc, rfl, rfl⟩
    · cases h; exact .inl ⟨hc, rfl, rfl⟩
    · exact absurd hc (connect_state (internalConnect_off h).1)
  | accept priv att syn =>
    rcases accept_cases h with h | ⟨ev, hs, h0, h1, h2, out, k1, k2, vals, hp, hv, -, -, -, -, hr, -⟩
    · rw [h.1] at hc; cases hc
    · exact .inr ⟨ev, .syn hp, by rw [hr]; exact hv, by rw [hr]⟩
  | recv msg =>
    simp only [exec] at h
    cases msg with
    | syn b => cases h
    | synack b =>
      unfold recv at h
      simp only at h
      split at h
      · cases h; cases hc
      · obtain ⟨r', hf, h⟩ := Out.bind_eq_ok.mp h
        split at h
        · cases h; cases hc
        · rename_i he
          cases h
          obtain ⟨ev, hs, h0, h1, k1, k2, vals, hh, hp, hv, -, -, hr, -, -⟩ := finish_cases hf he
          exact .inr ⟨ev, .synack hh hp, by rw [hr]; exact hv, by rw [hr]⟩
    | data ct =>
      rcases recv_data_cases h with h | ⟨h0, c, n, pt, hx, hd, -, h | ⟨ev, vals, hp, hv, -, hr⟩ | ⟨m, hp, hm, -, hr⟩⟩
      · rw [h.1] at hc; cases hc
      · rw [h.2.1]; exact .inl ⟨h0, rfl, rfl⟩
      · exact .inr ⟨ev, (.update (state_connected.mp h0) hx hd hp), by rw [hr]; exact hv, by rw [hr]⟩
      · rw [hr]; exact .inl ⟨h0, rfl, rfl⟩
    | rst => cases h; cases hc
    | unset => cases h; exact .inl ⟨hc, rfl, rfl⟩
  | send msg =>
    obtain ⟨-, h | ⟨h0, h1, -⟩ | ⟨h0, c, b, n, ct, -, -, -, hr, -⟩⟩ := send_cases h
    · rw [h.1] at hc ⊢; exact .inl ⟨hc, rfl, rfl⟩
    · rw [h1] at hc; cases hc
    · rw [hr]; exact .inl ⟨h0, rfl, rfl⟩
  | disconnect => cases h; cases hc

theorem i64_ok {x y : Int} (h : i64 x = .ok y) : y = x := by
  unfold i64 at h
  split at h
  · cases h; rfl
  · cases h

theorem inRange_true {now timeout last : Int} (h : inRange now timeout last = .ok true) :
    now ≤ last + timeout ∧ last - timeout ≤ now := by
  unfold inRange at h
  obtain ⟨hi, h1, h⟩ := Out.bind_eq_ok.mp h
  cases i64_ok h1
  split at h
  · obtain ⟨lo, h2, h⟩ := Out.bind_eq_ok.mp h
    cases i64_ok h2
    have : decide (now ≥ last - timeout) = true := by injection h
    exact ⟨‹_›, by simpa using this⟩
  · cases h

theorem maybeDisconnect_cases {now timeout : Int} {p : Peer L} {r : Ret L} {b : Bool}
    (h : maybeDisconnect now timeout p = .ok (r, b)) :
    (r.peer = p ∧ r.sent = [] ∧ (p.state = .connected → now ≤ p.lastAttestation + timeout ∧ p.lastAttestation - timeout ≤ now)) ∨
    (r.peer = p.drop ∧ r.sent = [.rst]) := by
  unfold maybeDisconnect at h
  simp only at h
  split at h
  · rename_i hd
    cases h; exact .inl ⟨rfl, rfl, fun hc => absurd (hd.symm.trans hc) (by decide)⟩
  obtain ⟨good, h2, h⟩ := Out.bind_eq_ok.mp h
  split at h
  · rename_i hg
    cases h
    refine .inl ⟨rfl, rfl, fun hc => ?_⟩
    rcases hg with hg | hg
    · subst hg; exact inRange_true h2
    · rw [hc] at hg; cases hg.1
  · cases h; exact .inr ⟨rfl, rfl⟩

end Svr.Peers
