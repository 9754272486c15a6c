import Verif.Props.Peers

/-!
# C42: the manager of peers never fails a `CHECK`, and when it is undefined

`C42_total` bounds clock and timeouts and asks for well-formed ids; `C42_clock_overflow` and `C42_malformed_id` show that
neither can be left out. Concrete runs follow.
-/

namespace Svr.Props.Peers

open Svr.Peers
open Svr.Minimums (Limits Values)

variable {L : Lib}

/-- The libraries do what an AEAD does. -/
def Sane (L : Lib) : Prop := ∀ k, (L.aead k).Lawful ∧ 0 < (L.aead k).mac ∧ (L.aead k).mac < Noise.maxMessage

/-- A time far from the ends of 64 bits. -/
def Mild (t : Int) : Prop := -(2 ^ 62) ≤ t ∧ t ≤ 2 ^ 62

/-- A timeout of 32 bits, as in the configuration (shared/proto/enclaveconfig.proto:78). -/
def Short (t : Int) : Prop := 0 ≤ t ∧ t < 2 ^ 32

/-- Ids of 32 bytes in messages from the host, times and timeouts within bounds. -/
def Usual : Ev L → Prop
  | .peerMessage id _ => id.length = 32
  | .setTime secs timeout => Mild secs ∧ Short timeout
  | _ => True

structure TamePeer (p : Peer L) : Prop where
  tx : ∀ c, p.tx = some c → c.nonce ≤ Noise.lastNonce
  rx : ∀ c, p.rx = some c → c.nonce ≤ Noise.lastNonce
  last : Mild p.lastAttestation

theorem mild_zero : Mild 0 := by unfold Mild; omega

theorem tame_off {p : Peer L} (ht : p.tx = none) (hx : p.rx = none) (hl : p.lastAttestation = 0) : TamePeer p :=
  ⟨fun c h => (by rw [ht] at h; cases h), fun c h => (by rw [hx] at h; cases h), by rw [hl]; exact mild_zero⟩

theorem tame_drop (p : Peer L) : TamePeer p.drop := tame_off rfl rfl rfl

theorem internalConnect_ok {id : Id} {priv : L.Priv} {att rnd : Bytes} {p : Peer L} :
    ∃ r, internalConnect L id priv att rnd p = .ok r ∧ TamePeer r.peer := by
  unfold internalConnect
  cases hr : reset L id priv .initiator p with
  | mk q e =>
    cases e with
    | some e =>
      unfold reset at hr
      split at hr <;> cases hr
      exact ⟨_, rfl, tame_drop p⟩
    | none =>
      obtain ⟨h0, hn, rfl⟩ := reset_none hr
      simp only [fail]
      repeat' split
      all_goals first
        | exact ⟨_, rfl, tame_off rfl rfl rfl⟩
        | contradiction

theorem finish_ok {id : Id} {ts : Int} {lim : Limits} {synack : Bytes} {p : Peer L} (hh : ∃ h, p.handshake = some h) :
    ∃ r, finishConnection L id ts lim synack p = .ok r := by
  obtain ⟨h, hh⟩ := hh
  unfold finishConnection
  rw [hh]
  simp only [fail]
  repeat' split
  all_goals exact ⟨_, rfl⟩

theorem exec_ok (hL : Sane L) {id : Id} {ts : Int} {lim : Limits} {rnd : Bytes} {p : Peer L} {op : Op L} (hp : TamePeer p)
    (ht : Mild ts) (ho : ∀ b, op ≠ .recv (.syn b)) : ∃ r, exec L id ts lim rnd p op = .ok r ∧ TamePeer r.peer := by
  cases op with
  | connect priv att => exact internalConnect_ok
  | maybeConnect priv att =>
    simp only [exec, maybeConnect]
    split
    · exact ⟨_, rfl, hp⟩
    · exact ⟨_, rfl, hp⟩
    · exact internalConnect_ok
  | accept priv att syn =>
    have : ∃ r, exec L id ts lim rnd p (.accept priv att syn) = .ok r := by
      simp only [exec, accept]
      cases hr : reset L id priv .responder p with
      | mk q e =>
        cases e with
        | some e => exact ⟨_, rfl⟩
        | none =>
          obtain ⟨h0, hn, rfl⟩ := reset_none hr
          simp only [fail]
          repeat' split
          all_goals first
            | exact ⟨_, rfl⟩
            | contradiction
    obtain ⟨r, hr⟩ := this
    refine ⟨r, hr, ?_⟩
    have hr' := hr
    simp only [exec, accept] at hr
    rcases accept_cases hr' with h | ⟨ev, hs, h0, h1, h2, out, k1, k2, vals, -, -, -, -, -, -, hq, -⟩
    · cases hq : reset L id priv .responder p with
      | mk q e =>
        rw [hq] at hr
        cases e with
        | some e =>
          cases hr
          unfold reset at hq
          split at hq <;> cases hq
          exact tame_drop p
        | none =>
          obtain ⟨h0, hn, rfl⟩ := reset_none hq
          simp only [fail] at hr
          repeat' split at hr
          all_goals first
            | (cases hr; exact tame_off rfl rfl rfl)
            | (cases hr; cases h.1)
    · rw [hq]
      exact ⟨fun c hc => (by cases hc; simp [Noise.lastNonce]), fun c hc => (by cases hc; simp [Noise.lastNonce]), ht⟩
  | recv msg =>
    simp only [exec]
    cases msg with
    | syn b => exact absurd rfl (ho b)
    | synack b =>
      unfold recv
      simp only
      split
      · exact ⟨_, rfl, tame_drop p⟩
      · rename_i hc
        obtain ⟨r, hf⟩ := finish_ok (L := L) (id := id) (ts := ts) (lim := lim) (synack := b) (state_connecting.mp (by simpa using hc))
        rw [hf]
        simp only [Out.bind_ok]
        cases he : r.err with
        | some e => exact ⟨_, rfl, tame_drop r.peer⟩
        | none =>
          obtain ⟨ev, hs, h0, h1, k1, k2, vals, -, -, -, -, -, hr, -, -⟩ := finish_cases hf he
          refine ⟨r, rfl, ?_⟩
          rw [hr]
          exact ⟨fun c hc => (by cases hc; simp [Noise.lastNonce]), fun c hc => (by cases hc; simp [Noise.lastNonce]), ht⟩
    | data ct =>
      unfold recv
      simp only
      split
      · exact ⟨_, rfl, tame_drop p⟩
      · rename_i hc
        obtain ⟨-, -, c, hx⟩ := state_connected.mp (by simpa using hc : p.state = .connected)
        rw [hx]
        simp only
        obtain ⟨n, o, hd, -, hn⟩ := Props.Noise.C45_decrypt_no_ub (hL c.key).1 (mx := Noise.maxMessage) (by decide) true (hp.rx c hx) ct
        rw [hd]
        simp only [Out.bind_ok]
        cases o with
        | none => exact ⟨_, rfl, tame_drop p⟩
        | some pt =>
          have ok : ∀ k v l m, Mild l → TamePeer ({ p with rx := some ⟨k, n⟩, rxRekey := v, lastAttestation := l, minimums := m } : Peer L) :=
            fun k v l m hl => ⟨hp.tx, fun c hc => (by cases hc; exact hn), hl⟩
          simp only
          split
          · exact ⟨_, rfl, ok _ _ _ _ hp.last⟩
          · split
            · rename_i q _ _
              exact ⟨_, rfl, tame_drop q⟩
            · rename_i q hq
              obtain ⟨vals, -, rfl⟩ := next_cases hq
              exact ⟨_, rfl, ok _ _ _ _ ht⟩
          · exact ⟨_, rfl, ok _ _ _ _ hp.last⟩
    | rst => exact ⟨_, rfl, tame_drop p⟩
    | unset => exact ⟨_, rfl, hp⟩
  | send msg =>
    simp only [exec, send]
    split
    · exact ⟨_, rfl, hp⟩
    · rename_i hc
      obtain ⟨-, ⟨c, ht'⟩, -⟩ := state_connected.mp (by simpa using hc : p.state = .connected)
      rw [ht']
      cases hs : L.serMsg msg with
      | none => exact ⟨_, rfl, hp⟩
      | some b =>
        simp only
        obtain ⟨n, o, hd, -, hn⟩ := Props.Noise.C45_encrypt_no_ub (hL c.key).1 (hL c.key).2.2 (hL c.key).2.1 true (hp.tx c ht') b
        rw [hd]
        simp only [Out.bind_ok]
        cases o with
        | none => exact ⟨_, rfl, tame_drop p⟩
        | some ct => exact ⟨_, rfl, fun c hc => (by cases hc; exact hn), hp.rx, hp.last⟩
  | disconnect => exact ⟨_, rfl, tame_drop p⟩

theorem maybeDisconnect_ok {now timeout : Int} {p : Peer L} (hp : TamePeer p) (ht : Short timeout) :
    ∃ r, maybeDisconnect now timeout p = .ok r ∧ TamePeer r.1.peer := by
  have hi : ∃ b, inRange now timeout p.lastAttestation = .ok b := by
    have h1 := hp.last
    unfold Mild at h1
    unfold Short at ht
    unfold inRange i64
    rw [if_pos (by omega), if_pos (by omega)]
    simp only [Out.bind_ok]
    split <;> exact ⟨_, rfl⟩
  obtain ⟨b, hb⟩ := hi
  unfold maybeDisconnect
  simp only
  split
  · exact ⟨_, rfl, hp⟩
  · rw [hb]
    simp only [Out.bind_ok]
    split
    · exact ⟨_, rfl, hp⟩
    · exact ⟨_, rfl, tame_drop p⟩

structure Tame (w : World L) : Prop where
  sound : Sound w
  peers : ∀ id p, w.peers.find id = some p → TamePeer p
  busy : ∀ id ts op, w.busy.find id = some (ts, op) → Mild ts
  time : Mild w.time
  wait : ∀ s t, w.task = some (.timeWait s t) → Short t
  sweep : ∀ s t l, w.task = some (.timeSweep s t l) → Short t

theorem step_ok (hL : Sane L) {w : World L} (hw : Tame w) {e : Ev L} (he : Usual e) : ∃ r, step L w e = .ok r := by
  cases e with
  | peerMessage id m =>
    simp only [step]
    rw [if_neg (by simp only [Usual] at he; simp [he])]
    repeat' split
    all_goals exact ⟨_, rfl⟩
  | run id rnd =>
    simp only [step]
    split
    · rename_i ts op p hb hp
      obtain ⟨r, hr, -⟩ := exec_ok hL (id := id) (lim := w.lim) (rnd := rnd) (hw.peers id p hp) (hw.busy id ts op hb) (hw.sound.busy id ts op hb).2
      rw [hr]
      exact ⟨_, rfl⟩
    · exact ⟨_, rfl⟩
  | sweepNext =>
    simp only [step]
    split
    · exact ⟨_, rfl⟩
    · rename_i secs timeout id todo hk
      split
      · rename_i p hb hp
        obtain ⟨⟨r, b⟩, hr, -⟩ := maybeDisconnect_ok (now := secs) (hw.peers id p hp) (hw.sweep _ _ _ hk)
        rw [hr]
        exact ⟨_, rfl⟩
      · exact ⟨_, rfl⟩
    · exact ⟨_, rfl⟩
  | _ =>
    simp only [step]
    repeat' split
    all_goals exact ⟨_, rfl⟩

theorem step_tame (hL : Sane L) {w w' : World L} (hw : Tame w) {e : Ev L} (he : Usual e) {es : List Eff}
    (h : step L w e = .ok (w', es)) : Tame w' := by
  refine ⟨step_sound hw.sound h, ?_, ?_, ?_, ?_, ?_⟩
  · intro id p hp
    cases step_from h hp with
    | same hq => exact hw.peers id p hq
    | new hn hq => subst hq; exact tame_off rfl rfl rfl
    | dropped hn hq => subst hq; exact tame_drop _
    | @ran rnd ts op q r he hb hq hx hpe =>
      subst hpe
      obtain ⟨r', hr', ht⟩ := exec_ok hL (id := id) (lim := w.lim) (rnd := rnd) (hw.peers id q hq) (hw.busy id ts op hb) (hw.sound.busy id ts op hb).2
      rw [hx] at hr'; cases hr'
      exact ht
  · intro id ts op hb
    rcases step_busy h hb with hb | ⟨rfl, -⟩
    · exact hw.busy id ts op hb
    · exact hw.time
  · rcases step_task h with ⟨h1, h2⟩ | ⟨s, t, rfl, h1, h2, rfl⟩ | ⟨s, t, h1, rfl⟩ | ⟨s, t, h1, rfl⟩ |
      ⟨s, t, id, todo, p, r, b, h1, hb, hp, hd, rfl⟩ | ⟨h1, rfl⟩ | ⟨b, h1, rfl⟩ | ⟨id, todo, p, h1, hp, hc, rfl⟩ |
      ⟨id, todo, h1, rfl⟩ | ⟨id, todo, p, h1, hp, rfl⟩
    · rw [h1]; exact hw.time
    · exact he.1
    all_goals exact hw.time
  · intro s' t' hk
    rcases step_task h with ⟨h1, h2⟩ | ⟨s, t, rfl, h1, h2, rfl⟩ | ⟨s, t, h1, rfl⟩ | ⟨s, t, h1, rfl⟩ |
      ⟨s, t, id, todo, p, r, b, h1, hb, hp, hd, rfl⟩ | ⟨h1, rfl⟩ | ⟨b, h1, rfl⟩ | ⟨id, todo, p, h1, hp, hc, rfl⟩ |
      ⟨id, todo, h1, rfl⟩ | ⟨id, todo, p, h1, hp, rfl⟩
    · rw [h2] at hk; exact hw.wait _ _ hk
    · cases hk; exact he.2
    all_goals cases hk
  · intro s' t' l' hk
    rcases step_task h with ⟨h1, h2⟩ | ⟨s, t, rfl, h1, h2, rfl⟩ | ⟨s, t, h1, rfl⟩ | ⟨s, t, h1, rfl⟩ |
      ⟨s, t, id, todo, p, r, b, h1, hb, hp, hd, rfl⟩ | ⟨h1, rfl⟩ | ⟨b, h1, rfl⟩ | ⟨id, todo, p, h1, hp, hc, rfl⟩ |
      ⟨id, todo, h1, rfl⟩ | ⟨id, todo, p, h1, hp, rfl⟩
    · rw [h2] at hk; exact hw.sweep _ _ _ hk
    · cases hk
    · cases hk; exact hw.wait _ _ h1
    · cases hk
    · cases hk; exact hw.sweep _ _ _ h1
    all_goals cases hk

/-- **C42**: whatever the host, the peers and the other threads do, the manager neither fails a `CHECK` nor does anything
undefined, as long as the ids in the host's messages have 32 bytes and clock and timeout are within bounds. -/
theorem C42_total (hL : Sane L) (lim : Limits) (evs : List (Ev L)) (he : ∀ e ∈ evs, Usual e) :
    ∃ r, run L (start L lim) evs = .ok r := by
  have h0 : Tame (start L lim) := ⟨start_sound lim, fun _ _ h => (by cases h), fun _ _ _ h => (by cases h), mild_zero,
    fun _ _ h => (by cases h), fun _ _ _ h => (by cases h)⟩
  suffices ∀ (evs : List (Ev L)) (w : World L), Tame w → (∀ e ∈ evs, Usual e) → ∃ r, run L w evs = .ok r from this evs _ h0 he
  intro evs
  induction evs with
  | nil => intro w _ _; exact ⟨_, rfl⟩
  | cons e evs ih =>
    intro w hw he
    obtain ⟨⟨w1, e1⟩, h1⟩ := step_ok hL hw (he e (.head _))
    obtain ⟨r, hr⟩ := ih w1 (step_tame hL hw (he e (.head _)) h1) (fun x hx => he x (.tail _ hx))
    refine ⟨(r.1, e1 ++ r.2), ?_⟩
    simp only [run, h1, hr, Out.bind_ok, Out.pure_eq]

/-! ## Concrete cases -/

/-- Libraries for examples: evidence is a version number and the key, a message to connect is evidence, a handshake is a
position, `plain` is the cipher of every key. -/
def toy : Lib where
  Hs := Role × Nat
  Key := Nat
  Priv := Unit
  attest _ ev := match ev with
    | v :: key => some (key, OMap.empty.insert [1] [v])
    | [] => none
  new role _ _ := .ok (role, 0)
  action h := match h with
    | (.initiator, 0) => .write
    | (.initiator, 1) => .read
    | (.responder, 0) => .read
    | (.responder, 1) => .write
    | (_, 2) => .split
    | _ => .other
  write h _ := some ((h.1, h.2 + 1), [])
  read h _ := some (h.1, h.2 + 1)
  split h := some (if h.1 = .initiator then (1, 2) else (2, 1))
  aead _ := Noise.plain
  rekey k := k + 2
  parseConn b := some (b, [])
  serConn att _ := some att
  parseMsg b := match b with
    | 0 :: ev => some (.update ev)
    | b => some (.other b)
  serMsg m := match m with
    | .connected => none
    | .update ev => some (0 :: ev)
    | .other b => some b

theorem toy_sane : Sane toy := fun _ => ⟨Noise.plain_lawful, (by decide : 0 < 2), (by decide : 2 < Noise.maxMessage)⟩

def pal : Id := List.replicate 32 7

/-- What an observer sees of a peer: state, attestation time, version. -/
def seen (id : Id) (o : Out (World toy × List Eff)) : Option (PeerState × Int × Option Bytes) :=
  match o with
  | .ok (w, _) => (w.peers.find id).map fun p => (p.state, p.lastAttestation, p.minimums.find [1])
  | _ => none

/-- The peer begins; the clock moves, and the peer sends new evidence. -/
def joinActs : List (Ev toy) :=
  [.init () (1 :: zeros 32), .setTime 50 100, .sweepStart, .sweepNext, .peerMessage pal (.syn (3 :: pal)), .lock 0, .run pal []]

example : seen pal (run toy (start toy .empty) joinActs) = some (.connected, 50, some [3]) := by decide +kernel

/-- A thread took the lock at time 50 and was slow: the sweep for time 200 waits for it and disconnects the peer. -/
example : seen pal (run toy (start toy .empty) (joinActs.dropLast ++ [.setTime 200 100, .sweepStart, .sweepNext, .run pal []])) =
      some (.connected, 50, some [3]) ∧
    seen pal (run toy (start toy .empty) (joinActs.dropLast ++ [.setTime 200 100, .sweepStart, .sweepNext, .run pal [], .sweepNext,
      .sweepNext])) = some (.disconnected, 0, none) := by decide +kernel

/-- This enclave begins, the answer comes, then evidence of a higher version in an encrypted message, at a later time. -/
def askActs : List (Ev toy) :=
  [.init () (1 :: zeros 32), .connectToPeer pal, .lock 0, .run pal [], .peerMessage pal (.synack (3 :: pal)), .lock 0, .run pal [],
   .setTime 70 100, .sweepStart, .sweepNext, .sweepNext,
   .peerMessage pal (.data (0 :: 4 :: pal ++ [0, 1])), .lock 0, .run pal []]

example : seen pal (run toy (start toy .empty) askActs) = some (.connected, 70, some [4]) := by decide +kernel

/-- The limit rises to 5: until `MinimumsUpdated` has run the peer is connected, then it is not. -/
def limitActs : List (Ev toy) := askActs ++ [.setLim (OMap.empty.insert [1] [5])]

example : seen pal (run toy (start toy .empty) (limitActs ++ [.minStart, .minCheck, .minNext, .minCheck])) =
    some (.disconnected, 0, none) := by decide +kernel

/-- The hypotheses of `C42_fresh_partial` in a case with a connected peer. -/
example : ∃ w0 e0 w es p, run toy (start toy .empty) joinActs = .ok (w0, e0) ∧ w0.task = none ∧ w0.time ≠ 120 ∧
    run toy (start toy .empty) (joinActs ++ .setTime 120 100 :: [.sweepStart, .sweepNext, .sweepNext]) = .ok (w, es) ∧
    w.task = none ∧ w.peers.find pal = some p ∧ p.state = .connected := by
  refine ⟨_, _, _, _, _, rfl, rfl, by decide, rfl, rfl, rfl, rfl⟩

/-- The hypotheses of `C42_minimums` in a case with a connected peer. -/
example : ∃ w0 e0 w es p, run toy (start toy .empty) joinActs = .ok (w0, e0) ∧ w0.task = none ∧
    run toy (start toy .empty) (joinActs ++ .minStart :: [.minCheck, .minCheck]) = .ok (w, es) ∧
    w.task = none ∧ w.peers.find pal = some p ∧ p.state = .connected := by
  refine ⟨_, _, _, _, _, rfl, rfl, rfl, rfl, rfl, rfl⟩

/-- **C42 is false while the clock stands still**: with a shorter timeout, `SetPeerAttestationTimestamp` for the same time
returns at once (enclave/peers/peers.cc:722-724), and a peer attested 50 seconds ago stays connected though 10 are allowed. -/
theorem C42_stale_until_the_clock_moves :
    seen pal (run toy (start toy .empty) (joinActs ++ [.setTime 100 100, .sweepStart, .sweepNext, .sweepNext,
      .setTime 100 10, .sweepStart, .sweepNext, .sweepNext])) = some (.connected, 50, some [3]) ∧
    ¬ (100 - 50 ≤ (10 : Int)) := by decide +kernel

/-- **C42 is false between a change of the minimums and `MinimumsUpdated`**: while a replica joins a group, it takes over the
group's minimums with each batch of replicated state (enclave/core/core.cc:558, 1371) and calls `MinimumsUpdated` only at
the end (644). In between a peer below the minimums stays connected. -/
theorem C42_low_until_checked :
    seen pal (run toy (start toy .empty) limitActs) = some (.connected, 70, some [4]) ∧
    ∃ w es, run toy (start toy .empty) limitActs = .ok (w, es) ∧ w.lim.find [1] = some [5] := by
  refine ⟨by decide +kernel, _, _, rfl, rfl⟩

/-- **Undefined behaviour**: the clock comes from hosts. If it shows the largest time when a peer connects, the next change of
the clock adds the timeout to it, and that overflows (enclave/peers/peers.cc:460). -/
theorem C42_clock_overflow :
    run toy (start toy .empty) [.init () (1 :: zeros 32), .setTime (2 ^ 63 - 1) 100, .sweepStart, .sweepNext,
      .peerMessage pal (.syn (3 :: pal)), .lock 0, .run pal [], .setTime 50 100, .sweepStart, .sweepNext] = .ub := by rfl

/-- **A failing `CHECK`**: core parses the id in a message of the host before the manager does (enclave/core/core.cc:1091-1093), so a
message with an id that has not 32 bytes ends the enclave. -/
theorem C42_malformed_id (w : World L) (id : Bytes) (m : Wire) (h : id.length ≠ 32) : step L w (.peerMessage id m) = .abort := by
  simp only [step]
  rw [if_pos h]

end Svr.Props.Peers
