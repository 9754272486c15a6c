import Verif.PeersRun

/-!
# C42: only freshly attested peers are connected

The specification is in `Verif/Spec/Attested.lean`.
-/

namespace Svr.Props.Peers

open Svr.Peers
open Svr.Minimums (Limits Values)

variable {L : Lib}

/-! ## Accepted evidence behind every connection -/

/-- The clock of a lock holder was the manager's clock at some earlier moment. -/
theorem clock_read {lim : Limits} : ∀ (evs : List (Ev L)) {w : World L} {es : List Eff},
    run L (start L lim) evs = .ok (w, es) → ∀ {id : Id} {ts : Int} {op : Op L}, w.busy.find id = some (ts, op) →
    ∃ b a w2 e2, evs = b ++ a ∧ run L (start L lim) b = .ok (w2, e2) ∧ w2.time = ts := by
  intro evs
  induction evs using List.reverseRecOn with
  | nil => intro w es h id ts op hb; cases h; cases hb
  | append_singleton evs e ih =>
    intro w es h id ts op hb
    obtain ⟨w1, e1, e2, h1, h2, rfl⟩ := run_snoc h
    rcases step_busy h2 hb with hb | ⟨rfl, -, -, -⟩
    · obtain ⟨b, a, w2, e2, rfl, h3, h4⟩ := ih h1 hb
      exact ⟨b, a ++ [e], w2, e2, by simp, h3, h4⟩
    · exact ⟨evs, [e], w1, e1, rfl, h1, rfl⟩

/-- **C42**: whenever a peer is connected, some earlier call was given evidence for exactly that peer, good at what was then the
manager's clock, with values that met the minimums in force at that call; the peer's timestamp and values are those of that
evidence, and the peer has been connected at every moment since. Whatever calls threads make and however they interleave. -/
theorem C42_attested {lim : Limits} : ∀ (evs : List (Ev L)) {w : World L} {es : List Eff},
    run L (start L lim) evs = .ok (w, es) → ∀ {id : Id} {p : Peer L}, w.peers.find id = some p → Ready p →
    ∃ before rnd after w1 e1 ts op q ev, evs = before ++ .run id rnd :: after ∧
      run L (start L lim) before = .ok (w1, e1) ∧ w1.busy.find id = some (ts, op) ∧ w1.peers.find id = some q ∧
      Presents L q op ev ∧ Vouched L id ts w1.lim ev p.minimums ∧ p.lastAttestation = ts ∧
      (∃ b a w2 e2, before = b ++ a ∧ run L (start L lim) b = .ok (w2, e2) ∧ w2.time = ts) ∧
      ∀ mid, mid <+: after → ∃ wm em pm, run L (start L lim) (before ++ .run id rnd :: mid) = .ok (wm, em) ∧
        wm.peers.find id = some pm ∧ Ready pm := by
  intro evs
  induction evs using List.reverseRecOn with
  | nil => intro w es h id p hp hr; cases h; cases hp
  | append_singleton evs e ih =>
    intro w es h id p hp hr
    obtain ⟨w1, e1, e2, h1, h2, rfl⟩ := run_snoc h
    -- the peer was connected before this event, with the same attestation, or this event accepted evidence
    have key : (∃ q, w1.peers.find id = some q ∧ Ready q ∧ p.lastAttestation = q.lastAttestation ∧ p.minimums = q.minimums) ∨
        ∃ rnd ts op q ev, e = .run id rnd ∧ w1.busy.find id = some (ts, op) ∧ w1.peers.find id = some q ∧ Presents L q op ev ∧
          Vouched L id ts w1.lim ev p.minimums ∧ p.lastAttestation = ts := by
      cases step_from h2 hp with
      | same hq => exact .inl ⟨p, hq, hr, rfl, rfl⟩
      | new hn hq => subst hq; obtain ⟨-, ⟨c, hc⟩, -⟩ := hr; cases hc
      | dropped hn hq => subst hq; obtain ⟨-, ⟨c, hc⟩, -⟩ := hr; cases hc
      | @ran rnd ts op q r he hb hq hx hpe =>
        subst hpe
        rcases exec_connected hx (state_connected.mpr hr) with hs | ⟨ev, hpr, hok, hl⟩
        · exact .inl ⟨q, hq, state_connected.mp hs.was, hs.last, hs.mins⟩
        · exact .inr ⟨rnd, ts, op, q, ev, he, hb, hq, hpr, hok.vouched, hl⟩
    rcases key with ⟨q, hq, hrq, hl, hm⟩ | ⟨rnd, ts, op, q, ev, rfl, hb, hq, hpr, hv, hl⟩
    · obtain ⟨before, rnd, after, w0, e0, ts, op, q0, ev, rfl, h3, h4, h5, h6, h7, h8, h9, h10⟩ := ih h1 hq hrq
      refine ⟨before, rnd, after ++ [e], w0, e0, ts, op, q0, ev, by simp, h3, h4, h5, h6, hm ▸ h7, hl.trans h8, h9, ?_⟩
      intro mid hmid
      rcases List.prefix_concat_iff.mp hmid with rfl | hmid
      · exact ⟨w, _, p, by simpa using h, hp, hr⟩
      · exact h10 mid hmid
    · refine ⟨evs, rnd, [], w1, e1, ts, op, q, ev, rfl, h1, hb, hq, hpr, hv, hl, clock_read evs h1 hb, ?_⟩
      intro mid hmid
      cases List.prefix_nil.mp hmid
      exact ⟨w, _, p, h, hp, hr⟩

/-! ## The keys of a session -/

/-- What the fields of a peer come from. -/
structure Keyed (L : Lib) (id : Id) (p : Peer L) : Prop where
  hs : ∀ h, p.handshake = some h → ∃ priv rnd h0 out, L.new .initiator priv id = .ok h0 ∧ L.write h0 rnd = some (h, out)
  keys : Ready p → ∃ k1 k2 c1 c2, Shook L id k1 k2 ∧ p.tx = some c1 ∧ p.rx = some c2 ∧ Rekeyed L k1 c1.key ∧ Rekeyed L k2 c2.key

theorem keyed_off {id : Id} {p : Peer L} (h : p.handshake = none) (ht : p.tx = none) : Keyed L id p :=
  ⟨fun h' e => (by rw [h] at e; cases e), fun hr => (by obtain ⟨-, ⟨c, hc⟩, -⟩ := hr; rw [ht] at hc; cases hc)⟩

theorem keyed_drop {id : Id} (p : Peer L) : Keyed L id p.drop := keyed_off rfl rfl

theorem disconnected_fields {p : Peer L} (h : p.state = .disconnected) : p.handshake = none ∧ ¬ Ready p := by
  refine ⟨?_, fun hr => by rw [state_connected.mpr hr] at h; cases h⟩
  cases hh : p.handshake with
  | none => rfl
  | some x => rw [state_connecting.mpr ⟨x, hh⟩] at h; cases h

theorem keyed_disconnected {id : Id} {p : Peer L} (h : p.state = .disconnected) : Keyed L id p := by
  obtain ⟨h1, h2⟩ := disconnected_fields h
  exact ⟨fun x hx => (by rw [h1] at hx; cases hx), fun hr => absurd hr h2⟩

theorem rekeyed_if {k k' : L.Key} (h : Rekeyed L k k') (c : Prop) [Decidable c] : Rekeyed L k (if c then L.rekey k' else k') := by
  split
  · exact h.step
  · exact h

theorem internalConnect_keyed {id : Id} {priv : L.Priv} {att rnd : Bytes} {p : Peer L} {r : Ret L}
    (h : internalConnect L id priv att rnd p = .ok r) : Keyed L id r.peer := by
  unfold internalConnect at h
  cases hr : reset L id priv .initiator p with
  | mk q e =>
    rw [hr] at h
    cases e with
    | some e =>
      cases h
      unfold reset at hr
      split at hr <;> cases hr
      exact keyed_drop p
    | none =>
      obtain ⟨h0, hn, rfl⟩ := reset_none hr
      simp only [fail] at h
      split at h
      · cases h; exact keyed_off rfl rfl
      split at h
      · cases h; exact keyed_off rfl rfl
      rename_i hw
      split at h
      · cases h; exact keyed_off rfl rfl
      cases h
      exact ⟨fun x hx => (by cases hx; exact ⟨priv, rnd, h0, _, hn, hw⟩), fun hr => (by obtain ⟨hr, -⟩ := hr; cases hr)⟩

theorem exec_keyed {id : Id} {ts : Int} {lim : Limits} {rnd : Bytes} {p : Peer L} {op : Op L} {r : Ret L}
    (hk : Keyed L id p) (h : exec L id ts lim rnd p op = .ok r) : Keyed L id r.peer := by
  cases op with
  | connect priv att => exact internalConnect_keyed h
  | maybeConnect priv att =>
    simp only [exec, maybeConnect] at h
    split at h
    · cases h; exact hk
    · cases h; exact hk
    · exact internalConnect_keyed h
  | accept priv att syn =>
    rcases accept_cases h with h | ⟨ev, hs, h0, h1, h2, out, k1, k2, vals, hp, hv, hn, hr1, hw, hs, hr, -⟩
    · exact keyed_disconnected h.1
    · rw [hr]
      exact ⟨fun x hx => (by cases hx), fun _ => ⟨k1, k2, ⟨k1, 0⟩, ⟨k2, 0⟩, .joined hn hr1 hw hs, rfl, rfl, .refl _, .refl _⟩⟩
  | recv msg =>
    simp only [exec] at h
    cases msg with
    | syn b => cases h
    | synack b =>
      unfold recv at h
      simp only at h
      split at h
      · cases h; exact keyed_drop p
      · obtain ⟨r', hf, h⟩ := Out.bind_eq_ok.mp h
        split at h
        · cases h; exact keyed_drop r'.peer
        · rename_i he
          cases h
          obtain ⟨ev, hs, h0, h1, k1, k2, vals, hh, hp, hv, hr1, hs, hr, -, -⟩ := finish_cases hf he
          obtain ⟨priv, rnd, h0', out, hn, hw⟩ := hk.hs h0 hh
          rw [hr]
          exact ⟨fun x hx => (by cases hx), fun _ => ⟨k1, k2, ⟨k1, 0⟩, ⟨k2, 0⟩, .began hn hw hr1 hs, rfl, rfl, .refl _, .refl _⟩⟩
    | data ct =>
      have upd : ∀ (c : Cipher L) (n : Nat) (k : UInt8) (l : Int) (v : Values) (b : Prop) [Decidable b], p.state = .connected →
          p.rx = some c → Keyed L id { p with rx := some ⟨if b then L.rekey c.key else c.key, n⟩, rxRekey := k,
                                              lastAttestation := l, minimums := v } := by
        intro c n k l v b _ h0 hx
        obtain ⟨k1, k2, c1, c2, hs, ht, hx', hk1, hk2⟩ := hk.keys (state_connected.mp h0)
        rw [hx] at hx'; cases hx'
        exact ⟨hk.hs, fun _ => ⟨k1, k2, c1, _, hs, ht, rfl, hk1, rekeyed_if hk2 _⟩⟩
      rcases recv_data_cases h with h | ⟨h0, c, n, pt, hx, hd, -, h | ⟨ev, vals, hp, hv, -, hr⟩ | ⟨m, hp, hm, -, hr⟩⟩
      · exact keyed_disconnected h.1
      · rw [h.2.1]; exact upd c n _ _ _ _ h0 hx
      · rw [hr]; exact upd c n _ _ _ _ h0 hx
      · rw [hr]; exact upd c n _ _ _ _ h0 hx
    | rst => cases h; exact keyed_drop p
    | unset => cases h; exact hk
  | send msg =>
    obtain ⟨-, h | ⟨h0, h1, -⟩ | ⟨h0, c, b, n, ct, -, ht, -, hr, -⟩⟩ := send_cases h
    · rw [h.1]; exact hk
    · exact keyed_disconnected h1
    · obtain ⟨k1, k2, c1, c2, hs, ht', hx', hk1, hk2⟩ := hk.keys (state_connected.mp h0)
      rw [ht] at ht'; cases ht'
      rw [hr]
      exact ⟨hk.hs, fun _ => ⟨k1, k2, _, c2, hs, rfl, hx', rekeyed_if hk1 _, hk2⟩⟩
  | disconnect => cases h; exact keyed_drop p

/-- **C42**: the keys of a connected peer come from a completed Noise handshake made with that peer's id as the static key of
the other side, by some number of rekeyings. -/
theorem C42_keys {lim : Limits} {evs : List (Ev L)} {w : World L} {es : List Eff} (h : run L (start L lim) evs = .ok (w, es))
    {id : Id} {p : Peer L} (hp : w.peers.find id = some p) (hr : Ready p) :
    ∃ k1 k2 c1 c2, Shook L id k1 k2 ∧ p.tx = some c1 ∧ p.rx = some c2 ∧ Rekeyed L k1 c1.key ∧ Rekeyed L k2 c2.key := by
  have : ∀ id p, w.peers.find id = some p → Keyed L id p :=
    run_inv (P := fun w => ∀ id p, w.peers.find id = some p → Keyed L id p) (ok := fun _ => True)
      (fun w w' e es _ hw h id p hp => by
        cases step_from h hp with
        | same hq => exact hw id p hq
        | new hn hq => subst hq; exact keyed_off rfl rfl
        | dropped hn hq => subst hq; exact keyed_drop _
        | ran he hb hq hx hpe => subst hpe; exact exec_keyed (hw id _ hq) hx)
      (fun _ _ => trivial) (fun id p hp => by cases hp) h
  exact (this id p hp).keys hr

/-! ## After a change of the clock -/

/-- A peer, and the holder of its lock, at clock `secs`. -/
def Good (secs timeout : Int) (w : World L) (id : Id) : Prop :=
  (∀ ts op, w.busy.find id = some (ts, op) → ts = secs) ∧
  ∀ p, w.peers.find id = some p → Ready p → secs ≤ p.lastAttestation + timeout ∧ p.lastAttestation - timeout ≤ secs

/-- Progress of `SetPeerAttestationTimestamp`. -/
def Swept (secs timeout : Int) (w : World L) : Prop :=
  w.time = secs ∧ Sound w ∧
  match w.task with
  | some (.timeWait s t) => s = secs ∧ t = timeout
  | some (.timeSweep s t todo) => s = secs ∧ t = timeout ∧ ∀ id, id ∉ todo → Good secs timeout w id
  | _ => ∀ id, Good secs timeout w id

theorem good_step {secs timeout : Int} (hT : 0 ≤ timeout) {w w' : World L} {e : Ev L} {es : List Eff} (hw : Sound w)
    (ht : w.time = secs) (h : step L w e = .ok (w', es)) {id : Id} (hg : Good secs timeout w id) : Good secs timeout w' id := by
  constructor
  · intro ts op hb
    rcases step_busy h hb with hb | ⟨rfl, -⟩
    · exact hg.1 ts op hb
    · exact ht
  · intro p hp hr
    cases step_from h hp with
    | same hq => exact hg.2 p hq hr
    | new hn hq => subst hq; obtain ⟨-, ⟨c, hc⟩, -⟩ := hr; cases hc
    | dropped hn hq => subst hq; obtain ⟨-, ⟨c, hc⟩, -⟩ := hr; cases hc
    | ran he hb hq hx hpe =>
      subst hpe
      rcases exec_connected hx (state_connected.mpr hr) with hs | ⟨ev, hpr, hok, hl⟩
      · rw [hs.last]; exact hg.2 _ hq (state_connected.mp hs.was)
      · have := hg.1 _ _ hb
        rw [hl]; omega

theorem ids_mem {w : World L} {id : Id} (h : id ∉ ids w) : w.peers.find id = none := by
  cases hf : w.peers.find id with
  | none => rfl
  | some p => exact absurd (List.mem_map.mpr ⟨(id, p), OMap.mem_list.mpr hf, rfl⟩) h

theorem good_unknown {secs timeout : Int} {w : World L} (hw : Sound w) {id : Id} (h : w.peers.find id = none) :
    Good secs timeout w id := by
  constructor
  · intro ts op hb
    obtain ⟨⟨p, hp⟩, -⟩ := hw.busy id ts op hb
    rw [h] at hp; cases hp
  · intro p hp; rw [h] at hp; cases hp

/-- What an event does to the clock and the task. -/
theorem step_task {w w' : World L} {e : Ev L} {es : List Eff} (h : step L w e = .ok (w', es)) :
    (w'.time = w.time ∧ w'.task = w.task) ∨
    (∃ s t, e = .setTime s t ∧ w.task = none ∧ w.time ≠ s ∧ w' = { w with time := s, task := some (.timeWait s t) }) ∨
    (∃ s t, w.task = some (.timeWait s t) ∧ w' = { w with task := some (.timeSweep s t (ids w)) }) ∨
    (∃ s t, w.task = some (.timeSweep s t []) ∧ w' = { w with task := none }) ∨
    (∃ s t id todo p r b, w.task = some (.timeSweep s t (id :: todo)) ∧ w.busy.find id = none ∧ w.peers.find id = some p ∧
      maybeDisconnect s t p = .ok (r, b) ∧
      w' = { w with peers := w.peers.insert id r.peer, task := some (.timeSweep s t todo) }) ∨
    (w.task = none ∧ w' = { w with task := some (.minSweep (ids w) false) }) ∨
    (∃ b, w.task = some (.minSweep [] b) ∧ w' = { w with task := none }) ∨
    (∃ id todo p, w.task = some (.minSweep (id :: todo) false) ∧ w.peers.find id = some p ∧ checkMinimums w.lim p = none ∧
      w' = { w with task := some (.minSweep todo false) }) ∨
    (∃ id todo, w.task = some (.minSweep (id :: todo) false) ∧ w' = { w with task := some (.minSweep (id :: todo) true) }) ∨
    (∃ id todo p, w.task = some (.minSweep (id :: todo) true) ∧ w.peers.find id = some p ∧
      w' = { w with peers := w.peers.insert id p.drop, task := some (.minSweep todo false) }) := by
  have hc : ∀ k, (createPeer w k).time = w.time ∧ (createPeer w k).task = w.task := by intro k; unfold createPeer; split <;> exact ⟨rfl, rfl⟩
  cases e with
  | setTime s t =>
    simp only [step] at h
    split at h
    · cases h; exact .inl ⟨rfl, rfl⟩
    split at h
    · cases h; exact .inl ⟨rfl, rfl⟩
    cases h; exact .inr (.inl ⟨s, t, rfl, ‹_›, ‹_›, rfl⟩)
  | sweepStart =>
    simp only [step] at h
    split at h
    · cases h; exact .inr (.inr (.inl ⟨_, _, ‹_›, rfl⟩))
    · cases h; exact .inl ⟨rfl, rfl⟩
  | sweepNext =>
    simp only [step] at h
    split at h
    · cases h; exact .inr (.inr (.inr (.inl ⟨_, _, ‹_›, rfl⟩)))
    · split at h
      · obtain ⟨⟨r, b⟩, hm, h⟩ := Out.bind_eq_ok.mp h
        cases h
        exact .inr (.inr (.inr (.inr (.inl ⟨_, _, _, _, _, r, b, ‹_›, ‹_›, ‹_›, hm, rfl⟩))))
      · cases h; exact .inl ⟨rfl, rfl⟩
    · cases h; exact .inl ⟨rfl, rfl⟩
  | minStart =>
    simp only [step] at h
    split at h
    · cases h; exact .inl ⟨rfl, rfl⟩
    · cases h; exact .inr (.inr (.inr (.inr (.inr (.inl ⟨‹_›, rfl⟩)))))
  | minCheck =>
    simp only [step] at h
    split at h
    · cases h; exact .inr (.inr (.inr (.inr (.inr (.inr (.inl ⟨_, ‹_›, rfl⟩))))))
    · split at h
      · split at h
        · cases h; exact .inr (.inr (.inr (.inr (.inr (.inr (.inr (.inr (.inl ⟨_, _, ‹_›, rfl⟩))))))))
        · cases h; exact .inr (.inr (.inr (.inr (.inr (.inr (.inr (.inl ⟨_, _, _, ‹_›, ‹_›, ‹_›, rfl⟩)))))))
      · cases h; exact .inl ⟨rfl, rfl⟩
    · cases h; exact .inl ⟨rfl, rfl⟩
  | minNext =>
    simp only [step] at h
    split at h
    · split at h
      · cases h; exact .inr (.inr (.inr (.inr (.inr (.inr (.inr (.inr (.inr ⟨_, _, _, ‹_›, ‹_›, rfl⟩))))))))
      · cases h; exact .inl ⟨rfl, rfl⟩
    · cases h; exact .inl ⟨rfl, rfl⟩
  | run k rnd =>
    simp only [step] at h
    split at h
    · obtain ⟨r, hx, h⟩ := Out.bind_eq_ok.mp h
      cases h; exact .inl ⟨rfl, rfl⟩
    · cases h; exact .inl ⟨rfl, rfl⟩
  | _ =>
    simp only [step] at h
    repeat' split at h
    all_goals first
      | (cases h; done)
      | (cases h; exact .inl ⟨rfl, rfl⟩)
      | (cases h; exact .inl (hc _))

theorem swept_step {secs timeout : Int} (hT : 0 ≤ timeout) {w w' : World L} {e : Ev L} {es : List Eff}
    (he : ∀ s t, e = .setTime s t → s = secs) (hw : Swept secs timeout w) (h : step L w e = .ok (w', es)) :
    Swept secs timeout w' := by
  obtain ⟨ht, hs, hm⟩ := hw
  have hg : ∀ {id}, Good secs timeout w id → Good secs timeout w' id := good_step hT hs ht h
  have hs' := step_sound hs h
  rcases step_task h with ⟨h1, h2⟩ | ⟨s, t, rfl, h1, h2, rfl⟩ | ⟨s, t, h1, rfl⟩ | ⟨s, t, h1, rfl⟩ |
    ⟨s, t, id, todo, p, r, b, h1, hb, hp, hd, rfl⟩ | ⟨h1, rfl⟩ | ⟨b, h1, rfl⟩ | ⟨id, todo, p, h1, -, -, rfl⟩ | ⟨id, todo, h1, rfl⟩ |
    ⟨id, todo, p, h1, -, rfl⟩
  · refine ⟨h1.trans ht, hs', ?_⟩
    rw [h2]
    cases hk : w.task with
    | none => rw [hk] at hm; exact fun id => hg (hm id)
    | some k =>
      rw [hk] at hm
      cases k with
      | timeWait s t => exact hm
      | timeSweep s t todo => exact ⟨hm.1, hm.2.1, fun id hi => hg (hm.2.2 id hi)⟩
      | minSweep todo b => exact fun id => hg (hm id)
  · exact absurd (ht.trans (he s t rfl).symm) h2
  · rw [h1] at hm
    exact ⟨ht, hs', hm.1, hm.2, fun id hi => good_unknown hs' (ids_mem hi)⟩
  · rw [h1] at hm
    exact ⟨ht, hs', fun id => hg (hm.2.2 id (by simp))⟩
  · rw [h1] at hm
    refine ⟨ht, hs', hm.1, hm.2.1, fun k hk => ?_⟩
    by_cases hki : k = id
    · subst hki
      refine ⟨fun ts op hb' => ?_, fun q hq hr => ?_⟩
      · simp only at hb'; rw [hb] at hb'; cases hb'
      · simp only [OMap.find_insert_self] at hq
        cases hq
        obtain ⟨rfl, rfl, -⟩ := hm
        rcases maybeDisconnect_cases hd with ⟨hq, -, hgood⟩ | ⟨hq, -⟩
        · rw [hq] at hr ⊢; exact hgood (state_connected.mpr hr)
        · rw [hq] at hr; obtain ⟨-, ⟨c, hc⟩, -⟩ := hr; cases hc
    · exact hg (hm.2.2 k (by simp [hki, hk]))
  · rw [h1] at hm; exact ⟨ht, hs', fun id => hg (hm id)⟩
  · rw [h1] at hm; exact ⟨ht, hs', fun id => hg (hm id)⟩
  · rw [h1] at hm; exact ⟨ht, hs', fun id => hg (hm id)⟩
  · rw [h1] at hm; exact ⟨ht, hs', fun id => hg (hm id)⟩
  · rw [h1] at hm; exact ⟨ht, hs', fun id => hg (hm id)⟩

/-- A call of `SetPeerAttestationTimestamp` is at work. -/
def Sweeping (w : World L) : Prop := (∃ s t, w.task = some (.timeWait s t)) ∨ ∃ s t l, w.task = some (.timeSweep s t l)

/-- **C42**: once a call of `SetPeerAttestationTimestamp` that moved the clock to `secs` has returned, every connected peer's
attestation is at most `timeout` seconds away from `secs`, and it stays so until the clock moves again: whatever other threads
do in the meantime, including connections they began before the call. Missing: a call that finds the clock unchanged but is given a
shorter timeout (`C42_stale_until_the_clock_moves`). -/
theorem C42_fresh_partial {lim : Limits} {before after : List (Ev L)} {w0 w : World L} {e0 es : List Eff} {secs timeout : Int}
    (h0 : run L (start L lim) before = .ok (w0, e0)) (hk : w0.task = none) (hne : w0.time ≠ secs) (hT : 0 ≤ timeout)
    (h : run L (start L lim) (before ++ .setTime secs timeout :: after) = .ok (w, es))
    (hstay : ∀ s t, .setTime s t ∈ after → s = secs) (hdone : ¬ Sweeping w)
    {id : Id} {p : Peer L} (hp : w.peers.find id = some p) (hr : Ready p) :
    secs - p.lastAttestation ≤ timeout ∧ p.lastAttestation - secs ≤ timeout := by
  rw [run_append, h0] at h
  simp only [Out.bind_ok, run] at h
  obtain ⟨⟨w2, e2⟩, h2, h⟩ := Out.bind_eq_ok.mp h
  cases h
  obtain ⟨⟨w1, e1⟩, h1, h2⟩ := Out.bind_eq_ok.mp h2
  obtain ⟨⟨w3, e3⟩, h3, h2⟩ := Out.bind_eq_ok.mp h2
  cases h2
  have hs := run_sound (start_sound lim) h0
  have hw1 : Swept secs timeout w1 := by
    have hs1 := step_sound hs h1
    simp only [step, hk, if_neg hne] at h1
    cases h1
    exact ⟨rfl, hs1, rfl, rfl⟩
  have hw := run_inv (P := Swept secs timeout) (ok := fun e => ∀ s t, e = .setTime s t → s = secs)
    (fun w w' e es he hw h => swept_step hT he hw h) (fun e he s t hst => hstay s t (hst ▸ he)) hw1 h3
  obtain ⟨-, -, hm⟩ := hw
  have hgood : Good secs timeout w3 id := by
    cases hkk : w3.task with
    | none => rw [hkk] at hm; exact hm id
    | some k =>
      rw [hkk] at hm
      cases k with
      | timeWait s t => exact absurd (.inl ⟨s, t, hkk⟩) hdone
      | timeSweep s t l => exact absurd (.inr ⟨s, t, l, hkk⟩) hdone
      | minSweep l b => exact hm id
  have := hgood.2 p hp hr
  omega

/-! ## After a change of the minimums -/

def Pass (w : World L) (id : Id) : Prop := ∀ p, w.peers.find id = some p → Ready p → Meets w.lim p.minimums

/-- Progress of `MinimumsUpdated`. -/
def Checked (w : World L) : Prop :=
  match w.task with
  | some (.minSweep todo _) => ∀ id, id ∉ todo → Pass w id
  | _ => ∀ id, Pass w id

theorem step_lim {w w' : World L} {e : Ev L} {es : List Eff} (h : step L w e = .ok (w', es)) (he : ∀ u, e ≠ .setLim u) :
    w'.lim = w.lim := by
  have hc : ∀ k, (createPeer w k).lim = w.lim := by intro k; unfold createPeer; split <;> rfl
  cases e with
  | setLim u => exact absurd rfl (he u)
  | sweepNext =>
    simp only [step] at h
    split at h
    · cases h; rfl
    · split at h
      · obtain ⟨⟨r, b⟩, hm, h⟩ := Out.bind_eq_ok.mp h
        cases h; rfl
      · cases h; rfl
    · cases h; rfl
  | run k rnd =>
    simp only [step] at h
    split at h
    · obtain ⟨r, hx, h⟩ := Out.bind_eq_ok.mp h
      cases h; rfl
    · cases h; rfl
  | _ =>
    simp only [step] at h
    repeat' split at h
    all_goals first
      | (cases h; done)
      | (cases h; rfl)
      | (cases h; exact hc _)

theorem pass_step {w w' : World L} {e : Ev L} {es : List Eff} (hl : w'.lim = w.lim) (h : step L w e = .ok (w', es)) {id : Id}
    (hg : Pass w id) : Pass w' id := by
  intro p hp hr
  rw [hl]
  cases step_from h hp with
  | same hq => exact hg p hq hr
  | new hn hq => subst hq; obtain ⟨-, ⟨c, hc⟩, -⟩ := hr; cases hc
  | dropped hn hq => subst hq; obtain ⟨-, ⟨c, hc⟩, -⟩ := hr; cases hc
  | ran he hb hq hx hpe =>
    subst hpe
    rcases exec_connected hx (state_connected.mpr hr) with hs | ⟨ev, hpr, ⟨pub, -, -, hok⟩, -⟩
    · rw [hs.mins]; exact hg _ hq (state_connected.mp hs.was)
    · exact checkValues_none.mp hok

theorem checked_step {w w' : World L} {e : Ev L} {es : List Eff} (he : ∀ u, e ≠ .setLim u) (hw : Checked w)
    (h : step L w e = .ok (w', es)) : Checked w' := by
  have hg : ∀ {id}, Pass w id → Pass w' id := pass_step (step_lim h he) h
  unfold Checked at hw ⊢
  rcases step_task h with ⟨h1, h2⟩ | ⟨s, t, rfl, h1, h2, rfl⟩ | ⟨s, t, h1, rfl⟩ | ⟨s, t, h1, rfl⟩ |
    ⟨s, t, id, todo, p, r, b, h1, hb, hp, hd, rfl⟩ | ⟨h1, rfl⟩ | ⟨b, h1, rfl⟩ | ⟨id, todo, p, h1, hp, hc, rfl⟩ | ⟨id, todo, h1, rfl⟩ |
    ⟨id, todo, p, h1, hp, rfl⟩
  · rw [h2]
    cases hk : w.task with
    | none => rw [hk] at hw; exact fun id => hg (hw id)
    | some k =>
      rw [hk] at hw
      cases k with
      | timeWait s t => exact fun id => hg (hw id)
      | timeSweep s t todo => exact fun id => hg (hw id)
      | minSweep todo b => exact fun id hi => hg (hw id hi)
  · rw [h1] at hw; exact fun id => hg (hw id)
  · rw [h1] at hw; exact fun id => hg (hw id)
  · rw [h1] at hw; exact fun id => hg (hw id)
  · rw [h1] at hw; exact fun id => hg (hw id)
  · rw [h1] at hw; exact fun id _ => hg (hw id)
  · rw [h1] at hw; exact fun id => hg (hw id (by simp))
  · rw [h1] at hw
    intro k hk
    by_cases hki : k = id
    · subst hki
      intro q hq hr
      simp only at hq
      rw [hp] at hq; cases hq
      unfold checkMinimums at hc
      rw [if_neg (by simp [state_connected.mpr hr])] at hc
      exact checkValues_none.mp hc
    · exact hg (hw k (by simp [hki, hk]))
  · rw [h1] at hw; exact fun k hk => hg (hw k hk)
  · rw [h1] at hw
    intro k hk
    by_cases hki : k = id
    · subst hki
      intro q hq hr
      simp only [OMap.find_insert_self] at hq
      cases hq
      obtain ⟨-, ⟨c, hc⟩, -⟩ := hr; cases hc
    · exact hg (hw k (by simp [hki, hk]))

/-- **C42**: once a call of `MinimumsUpdated` has returned, every connected peer's values meet the minimums, and it stays so
until the minimums change again, whatever other threads do in the meantime. -/
theorem C42_minimums {lim : Limits} {before after : List (Ev L)} {w0 w : World L} {e0 es : List Eff}
    (h0 : run L (start L lim) before = .ok (w0, e0)) (hk : w0.task = none)
    (h : run L (start L lim) (before ++ .minStart :: after) = .ok (w, es)) (hstay : ∀ u, .setLim u ∉ after)
    (hdone : ∀ todo b, w.task ≠ some (.minSweep todo b)) {id : Id} {p : Peer L} (hp : w.peers.find id = some p) (hr : Ready p) :
    Meets w.lim p.minimums := by
  rw [run_append, h0] at h
  simp only [Out.bind_ok, run] at h
  obtain ⟨⟨w2, e2⟩, h2, h⟩ := Out.bind_eq_ok.mp h
  cases h
  obtain ⟨⟨w1, e1⟩, h1, h2⟩ := Out.bind_eq_ok.mp h2
  obtain ⟨⟨w3, e3⟩, h3, h2⟩ := Out.bind_eq_ok.mp h2
  cases h2
  have hw1 : Checked w1 := by
    simp only [step, hk] at h1
    cases h1
    intro id hi p hp
    simp only at hp
    rw [ids_mem (w := w0) hi] at hp; cases hp
  have hw := run_inv (P := Checked) (ok := fun e => ∀ u, e ≠ .setLim u)
    (fun w w' e es he hw h => checked_step he hw h) (fun e he u hu => hstay u (hu ▸ he)) hw1 h3
  unfold Checked at hw
  cases hkk : w3.task with
  | none => rw [hkk] at hw; exact hw id p hp hr
  | some k =>
    rw [hkk] at hw
    cases k with
    | timeWait s t => exact hw id p hp hr
    | timeSweep s t l => exact hw id p hp hr
    | minSweep l b => exact absurd hkk (hdone l b)

/-! ## What passes between the enclave and a peer -/

theorem exec_decoded {id : Id} {ts : Int} {lim : Limits} {rnd : Bytes} {p : Peer L} {op : Op L} {r : Ret L}
    (h : exec L id ts lim rnd p op = .ok r) {m : Msg} (hm : r.decoded = some m) :
    Ready r.peer ∧ (∀ ev, m ≠ .update ev) ∧ ((Ready p ∧ ∃ c ct n pt, op = .recv (.data ct) ∧ p.rx = some c ∧
      Noise.decrypt (L.aead c.key) Noise.maxMessage true c.nonce ct = .ok (n, some pt) ∧ L.parseMsg pt = some m) ∨
      m = .connected ∧ ∃ ev, Presents L p op ev ∧ Vouched L id ts lim ev r.peer.minimums) := by
  cases op with
  | connect priv att => rw [(internalConnect_off h).2.2] at hm; cases hm
  | maybeConnect priv att =>
    simp only [exec, maybeConnect] at h
    split at h
    · cases h; cases hm
    · cases h; cases hm
    · rw [(internalConnect_off h).2.2] at hm; cases hm
  | accept priv att syn =>
    rcases accept_cases h with h | ⟨ev, hs, h0, h1, h2, out, k1, k2, vals, hp, hv, -, -, -, -, hr, hd⟩
    · rw [h.2.1] at hm; cases hm
    · rw [hd] at hm; cases hm
      rw [hr]
      exact ⟨⟨rfl, ⟨_, rfl⟩, ⟨_, rfl⟩⟩, (fun ev he => by cases he), .inr ⟨rfl, ev, .syn hp, hv.vouched⟩⟩
  | recv msg =>
    simp only [exec] at h
    cases msg with
    | syn b => cases h
    | synack b =>
      unfold recv at h
      simp only at h
      split at h
      · cases h; cases hm
      · obtain ⟨r', hf, h⟩ := Out.bind_eq_ok.mp h
        split at h
        · cases h; cases hm
        · rename_i he
          cases h
          obtain ⟨ev, hs, h0, h1, k1, k2, vals, hh, hp, hv, -, -, hr, hd, -⟩ := finish_cases hf he
          rw [hd] at hm; cases hm
          rw [hr]
          exact ⟨⟨rfl, ⟨_, rfl⟩, ⟨_, rfl⟩⟩, (fun ev he => by cases he), .inr ⟨rfl, ev, .synack hh hp, hv.vouched⟩⟩
    | data ct =>
      rcases recv_data_cases h with h | ⟨h0, c, n, pt, hx, hd, -, h | ⟨ev, vals, hp, hv, hd', hr⟩ | ⟨m', hp, hm', hd', hr⟩⟩
      · rw [h.2.1] at hm; cases hm
      · rw [h.2.2] at hm; cases hm
      · rw [hd'] at hm; cases hm
      · rw [hd'] at hm; cases hm
        have h0' := state_connected.mp h0
        rw [hr]
        exact ⟨⟨h0'.1, h0'.2.1, ⟨_, rfl⟩⟩, hm', .inl ⟨h0', c, ct, n, pt, rfl, hx, hd, hp⟩⟩
    | rst => cases h; cases hm
    | unset => cases h; cases hm
  | send msg => rw [(send_cases h).1] at hm; cases hm
  | disconnect => cases h; cases hm

/-- **C42**: a message reaches the rest of the enclave only from a peer that is connected, and then it was decrypted with the keys of
that connection, or it is the notice that a call just accepted the peer's evidence; evidence itself is never handed on. -/
theorem C42_heard {w w' : World L} {e : Ev L} {es : List Eff} (h : step L w e = .ok (w', es)) {id : Id} {m : Msg}
    (hm : Eff.got id m ∈ es) :
    ∃ p q ts op rnd, w.peers.find id = some p ∧ w'.peers.find id = some q ∧ Ready q ∧ (∀ ev, m ≠ .update ev) ∧
      e = .run id rnd ∧ w.busy.find id = some (ts, op) ∧
      ((Ready p ∧ ∃ c ct n pt, op = .recv (.data ct) ∧ p.rx = some c ∧
        Noise.decrypt (L.aead c.key) Noise.maxMessage true c.nonce ct = .ok (n, some pt) ∧ L.parseMsg pt = some m) ∨
       m = .connected ∧ ∃ ev, Presents L p op ev ∧ Vouched L id ts w.lim ev q.minimums) := by
  cases e with
  | run k rnd =>
    simp only [step] at h
    split at h
    · rename_i ts op p hb hp
      obtain ⟨r, hx, h⟩ := Out.bind_eq_ok.mp h
      cases h
      simp only [effects, List.mem_append, List.mem_map, List.mem_singleton] at hm
      have hk : k = id ∧ r.decoded = some m := by
        rcases hm with (⟨x, -, hx⟩ | hm) | hm
        · cases hx
        · cases hd : r.decoded with
          | none => rw [hd] at hm; cases hm
          | some m' => rw [hd] at hm; simp only [List.mem_singleton, Eff.got.injEq] at hm; exact ⟨hm.1.symm, by rw [hm.2]⟩
        · cases hm
      obtain ⟨rfl, hd⟩ := hk
      obtain ⟨h1, h2, h3⟩ := exec_decoded hx hd
      exact ⟨p, r.peer, ts, op, rnd, hp, OMap.find_insert_self .., h1, h2, rfl, hb, h3⟩
    · cases h; cases hm
  | sweepNext =>
    simp only [step] at h
    split at h
    · cases h; cases hm
    · split at h
      · obtain ⟨⟨r, b⟩, hd, h⟩ := Out.bind_eq_ok.mp h
        cases h
        obtain ⟨x, -, hx⟩ := List.mem_map.mp hm
        cases hx
      · cases h; cases hm
    · cases h; cases hm
  | _ =>
    simp only [step] at h
    repeat' split at h
    all_goals first
      | (cases h; done)
      | (cases h; simp at hm; done)

theorem internalConnect_sent {id : Id} {priv : L.Priv} {att rnd : Bytes} {p : Peer L} {r : Ret L}
    (h : internalConnect L id priv att rnd p = .ok r) {ct : Bytes} : Wire.data ct ∉ r.sent := by
  unfold internalConnect at h
  simp only [fail] at h
  repeat' split at h
  all_goals first
    | (cases h; done)
    | (cases h; simp; done)

/-- **C42**: an encrypted message is sent only to a peer that is connected, and under the keys of that connection. -/
theorem C42_told {w w' : World L} {e : Ev L} {es : List Eff} (h : step L w e = .ok (w', es)) {id : Id} {ct : Bytes}
    (hm : Eff.sent id (.data ct) ∈ es) :
    ∃ p c ts rnd m b n, w.peers.find id = some p ∧ Ready p ∧ e = .run id rnd ∧ w.busy.find id = some (ts, .send m) ∧ p.tx = some c ∧
      L.serMsg m = some b ∧ Noise.encrypt (L.aead c.key) Noise.maxMessage true c.nonce b = .ok (n, some ct) := by
  cases e with
  | run k rnd =>
    simp only [step] at h
    split at h
    · rename_i ts op p hb hp
      obtain ⟨r, hx, h⟩ := Out.bind_eq_ok.mp h
      cases h
      have hk : k = id ∧ Wire.data ct ∈ r.sent := by
        simp only [effects, List.mem_append, List.mem_map, List.mem_singleton] at hm
        rcases hm with (⟨x, hx, he⟩ | hm) | hm
        · cases he; exact ⟨rfl, hx⟩
        · split at hm <;> simp at hm
        · cases hm
      obtain ⟨rfl, hd⟩ := hk
      cases op with
      | connect priv att => exact absurd hd (internalConnect_sent hx)
      | maybeConnect priv att =>
        simp only [exec, maybeConnect] at hx
        split at hx
        · cases hx; cases hd
        · cases hx; cases hd
        · exact absurd hd (internalConnect_sent hx)
      | accept priv att syn =>
        simp only [exec, accept, fail] at hx
        repeat' split at hx
        all_goals first
          | (cases hx; done)
          | (cases hx; simp at hd; done)
      | recv msg =>
        simp only [exec] at hx
        cases msg with
        | syn b => cases hx
        | synack b =>
          unfold recv at hx
          simp only at hx
          split at hx
          · cases hx; simp at hd
          · obtain ⟨r', hf, hx⟩ := Out.bind_eq_ok.mp hx
            split at hx
            · cases hx; simp at hd
            · rename_i he
              cases hx
              obtain ⟨ev, hs, h0, h1, k1, k2, vals, hh, hp, hv, -, -, hr, -, hs⟩ := finish_cases hf he
              rw [hs] at hd; cases hd
        | data ct =>
          rcases recv_data_cases hx with h | ⟨h0, c, n, pt, hx, hd', hs, -⟩
          · rw [h.2.2] at hd; simp at hd
          · rw [hs] at hd; cases hd
        | rst => cases hx; cases hd
        | unset => cases hx; cases hd
      | send msg =>
        obtain ⟨-, h | ⟨h0, h1, hs⟩ | ⟨h0, c, b, n, ct', hb', ht, he, hr, hs, -⟩⟩ := send_cases hx
        · rw [h.2] at hd; cases hd
        · rw [hs] at hd; simp at hd
        · rw [hs] at hd; simp at hd; subst hd
          exact ⟨p, c, ts, rnd, msg, b, n, hp, state_connected.mp h0, rfl, hb, ht, hb', he⟩
      | disconnect => cases hx; simp at hd
    · cases h; cases hm
  | sweepNext =>
    simp only [step] at h
    split at h
    · cases h; cases hm
    · split at h
      · obtain ⟨⟨r, b⟩, hd, h⟩ := Out.bind_eq_ok.mp h
        cases h
        obtain ⟨x, hx, he⟩ := List.mem_map.mp hm
        cases he
        rcases maybeDisconnect_cases hd with ⟨-, hs, -⟩ | ⟨-, hs⟩
        · rw [hs] at hx; cases hx
        · rw [hs] at hx; simp at hx
      · cases h; cases hm
    · cases h; cases hm
  | _ =>
    simp only [step] at h
    repeat' split at h
    all_goals first
      | (cases h; done)
      | (cases h; simp at hm; done)

end Svr.Props.Peers
