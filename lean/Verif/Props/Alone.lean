import Verif.Props.PeersTotal
import Verif.Spec.Alone

/-!
# C93: an enclave takes in no message of its own

The host routes messages between enclaves, and nothing in the code keeps it from asking an enclave to connect to its own key, or
from handing an enclave the messages it sent. The specification is in `Verif/Spec/Alone.lean`.
-/

namespace Svr.Props.Alone

open Svr.Peers
open Svr.Minimums (Limits Values)
open Props.Peers (rekeyed_if disconnected_fields)

variable {L : Lib}

theorem honest_prefix {l x : List (Call L)} (h : Honest (l ++ x)) : Honest l where
  fresh b a g m e := h.fresh b (a ++ x) g m (by rw [e]; simp)
  authentic b a g o e := h.authentic b (a ++ x) g o (by rw [e]; simp)
  unforged b a k e := h.unforged b (a ++ x) k (by rw [e]; simp)
  apart m out t r m' out' t' r' h1 h2 := h.apart m out t r m' out' t' r' (List.mem_append_left _ h1) (List.mem_append_left _ h2)

theorem trace_snoc {me : Id} : ∀ (evs : List (Ev L)) {w w1 w2 : World L} {e : Ev L} {e1 e2 : List Eff},
    run L w evs = .ok (w1, e1) → step L w1 e = .ok (w2, e2) →
    trace L me w (evs ++ [e]) = trace L me w evs ++ (evCall L me w1 e).toList := by
  intro evs
  induction evs with
  | nil => intro w w1 w2 e e1 e2 h h2; cases h; simp [trace, h2]
  | cons x evs ih =>
    intro w w1 w2 e e1 e2 h h2
    simp only [run] at h
    obtain ⟨⟨w3, e3⟩, h3, h⟩ := Out.bind_eq_ok.mp h
    obtain ⟨⟨w4, e4⟩, h4, h⟩ := Out.bind_eq_ok.mp h
    cases h
    simp only [List.cons_append, trace, h3, ih h4 h2, List.append_assoc]

/-- What is kept of the peer with the enclave's own key: a handshake begun and never answered, keys of handshakes answered. -/
structure Half (l : List (Call L)) (p : Peer L) : Prop where
  hs : ∀ h, p.handshake = some h → ∃ m, .wrote h m ∈ l ∧ ∀ out t r, .answered m out t r ∉ l
  tx : Ready p → ∀ c, p.tx = some c → ∃ m out t r, .answered m out t r ∈ l ∧ Rekeyed L t c.key
  rx : Ready p → ∀ c, p.rx = some c → ∃ m out t r, .answered m out t r ∈ l ∧ Rekeyed L r c.key

/-- What the calls so far were. -/
structure Mute (l : List (Call L)) : Prop where
  sealed : ∀ k, .sealed k ∈ l → ∃ m out t r, .answered m out t r ∈ l ∧ Rekeyed L t k
  opened : ∀ k, .opened k ∉ l
  finished : ∀ h out, .finished h out ∉ l

theorem half_drop (l : List (Call L)) (p : Peer L) : Half l p.drop :=
  ⟨fun _ h => (by cases h), fun _ _ h => (by cases h), fun _ _ h => (by cases h)⟩

theorem half_more {l : List (Call L)} {p : Peer L} {x : List (Call L)} (h : Half l p) (hx : ∀ m out t r, .answered m out t r ∉ x) :
    Half (l ++ x) p where
  hs g hg := by
    obtain ⟨m, h1, h2⟩ := h.hs g hg
    refine ⟨m, List.mem_append_left _ h1, fun out t r hm => ?_⟩
    rcases List.mem_append.mp hm with hm | hm
    · exact h2 out t r hm
    · exact hx _ _ _ _ hm
  tx hr c hc := by obtain ⟨m, out, t, r, h1, h2⟩ := h.tx hr c hc; exact ⟨m, out, t, r, List.mem_append_left _ h1, h2⟩
  rx hr c hc := by obtain ⟨m, out, t, r, h1, h2⟩ := h.rx hr c hc; exact ⟨m, out, t, r, List.mem_append_left _ h1, h2⟩

/-- After beginning a handshake there is none, or the one begun. -/
theorem begin_half {me : Id} {priv : L.Priv} {att rnd : Bytes} {p : Peer L} {r : Ret L} {l : List (Call L)}
    (h : internalConnect L me priv att rnd p = .ok r) (hl : Honest (l ++ (beginCall L me priv rnd).toList)) :
    Half (l ++ (beginCall L me priv rnd).toList) r.peer := by
  unfold internalConnect at h
  cases hr : reset L me priv .initiator p with
  | mk q e =>
    rw [hr] at h
    cases e with
    | some e =>
      cases h
      unfold reset at hr
      split at hr <;> cases hr
      exact half_drop _ p
    | none =>
      obtain ⟨h0, hn, rfl⟩ := reset_none hr
      have off : Half (l ++ (beginCall L me priv rnd).toList) { p.drop with handshake := none } := half_drop _ p
      simp only [fail] at h
      split at h
      · cases h; exact off
      split at h
      · cases h; exact off
      rename_i h1 m hw
      split at h
      · cases h; exact off
      cases h
      have hc : beginCall L me priv rnd = some (.wrote h1 m) := by simp [beginCall, hn, hw]
      rw [hc] at hl ⊢
      refine ⟨fun g hg => ?_, fun _ _ h => (by cases h), fun _ _ h => (by cases h)⟩
      cases hg
      refine ⟨m, by simp, fun out t r hm => ?_⟩
      rcases List.mem_append.mp hm with hm | hm
      · exact hl.fresh l [] h1 m rfl out t r hm
      · simp at hm

theorem begin_call {me : Id} {priv : L.Priv} {rnd : Bytes} {c : Call L} (h : beginCall L me priv rnd = some c) :
    ∃ g m, c = .wrote g m := by
  unfold beginCall at h
  split at h
  · cases h
  · obtain ⟨x, -, rfl⟩ := Option.map_eq_some_iff.mp h; exact ⟨_, _, rfl⟩

theorem answer_call {me : Id} {priv : L.Priv} {syn rnd : Bytes} {c : Call L} (h : answerCall L me priv syn rnd = some c) :
    ∃ m out t r, c = .answered m out t r := by
  unfold answerCall at h
  split at h
  · simp only [Option.bind_eq_some_iff, Option.map_eq_some_iff] at h
    obtain ⟨_, -, _, -, _, -, rfl⟩ := h
    exact ⟨_, _, _, _, rfl⟩
  · cases h

/-- A call adds to what was before one that is neither a reading of an answer nor an opening. -/
theorem mute_more {l : List (Call L)} (h : Mute l) {c : Call L} (hs : ∀ k, c = .sealed k → ∃ m out t r, .answered m out t r ∈ l ∧ Rekeyed L t k)
    (ho : ∀ k, c ≠ .opened k) (hf : ∀ g out, c ≠ .finished g out) : Mute (l ++ [c]) where
  sealed k hk := by
    rcases List.mem_append.mp hk with hk | hk
    · obtain ⟨m, out, t, r, h1, h2⟩ := h.sealed k hk; exact ⟨m, out, t, r, List.mem_append_left _ h1, h2⟩
    · obtain ⟨m, out, t, r, h1, h2⟩ := hs k (List.mem_singleton.mp hk).symm; exact ⟨m, out, t, r, List.mem_append_left _ h1, h2⟩
  opened k hk := by
    rcases List.mem_append.mp hk with hk | hk
    · exact h.opened k hk
    · exact ho k (List.mem_singleton.mp hk).symm
  finished g out hk := by
    rcases List.mem_append.mp hk with hk | hk
    · exact h.finished g out hk
    · exact hf g out (List.mem_singleton.mp hk).symm

/-- The calls after an operation. -/
theorem op_mute {me : Id} {rnd : Bytes} {p : Peer L} {op : Op L} {l : List (Call L)} (hp : Half l p) (hm : Mute l)
    (hl : Honest (l ++ (opCall L me rnd p op).toList)) : Mute (l ++ (opCall L me rnd p op).toList) := by
  cases hc : opCall L me rnd p op with
  | none => simpa using hm
  | some c =>
    rw [hc] at hl
    simp only [Option.toList] at hl ⊢
    have wr : ∀ g m, c = .wrote g m → Mute (l ++ [c]) := by
      rintro g m rfl; exact mute_more hm (fun _ h => by cases h) (fun _ h => by cases h) (fun _ _ h => by cases h)
    cases op with
    | connect priv att => obtain ⟨g, m, e⟩ := begin_call hc; exact wr g m e
    | maybeConnect priv att =>
      simp only [opCall] at hc
      split at hc
      · obtain ⟨g, m, e⟩ := begin_call hc; exact wr g m e
      · cases hc
    | accept priv att syn =>
      obtain ⟨m, out, t, r, rfl⟩ := answer_call hc
      exact mute_more hm (fun _ h => by cases h) (fun _ h => by cases h) (fun _ _ h => by cases h)
    | recv msg =>
      cases msg with
      | synack b =>
        exfalso
        simp only [opCall] at hc
        split at hc
        · rename_i h ev out hh hb
          obtain ⟨h', -, rfl⟩ := Option.map_eq_some_iff.mp hc
          obtain ⟨m, h1, h2⟩ := hp.hs h hh
          obtain ⟨t, r, h3⟩ := hl.authentic l [] h out rfl m h1
          exact h2 out t r h3
        · cases hc
      | data ct =>
        exfalso
        simp only [opCall] at hc
        split at hc
        · rename_i c' hst hx
          split at hc
          · cases hc
            obtain ⟨m, out, t, r, h1, h2⟩ := hp.rx (state_connected.mp hst) c' hx
            obtain ⟨m', out', t', r', h3, h4⟩ := hm.sealed _ (hl.unforged l [] c'.key rfl)
            exact hl.apart m' out' t' r' m out t r (List.mem_append_left _ h3) (List.mem_append_left _ h1) _ h4 h2
          · cases hc
        · cases hc
      | syn b => cases hc
      | rst => cases hc
      | unset => cases hc
    | send msg =>
      simp only [opCall] at hc
      split at hc
      · rename_i c' hst ht
        cases hc
        refine mute_more hm (fun k h => ?_) (fun _ h => by cases h) (fun _ _ h => by cases h)
        cases h
        exact hp.tx (state_connected.mp hst) c' ht
      · cases hc
    | disconnect => cases hc

theorem half_disconnected {l : List (Call L)} {p : Peer L} (h : p.state = .disconnected) : Half l p := by
  obtain ⟨h1, h2⟩ := disconnected_fields h
  exact ⟨fun _ e => (by rw [h1] at e; cases e), fun hr => absurd hr h2, fun hr => absurd hr h2⟩

/-- The peer after an operation. -/
theorem op_half {me : Id} {ts : Int} {lim : Limits} {rnd : Bytes} {p : Peer L} {op : Op L} {r : Ret L} {l : List (Call L)}
    (hp : Half l p) (h : exec L me ts lim rnd p op = .ok r) (hl : Honest (l ++ (opCall L me rnd p op).toList))
    (hm : Mute (l ++ (opCall L me rnd p op).toList)) : Half (l ++ (opCall L me rnd p op).toList) r.peer := by
  have mk : ∀ (q : Peer L), q.handshake = p.handshake → (∀ m out t r, .answered m out t r ∉ (opCall L me rnd p op).toList) →
      (Ready q → Ready p) → (∀ c, Ready p → q.tx = some c → ∃ c', p.tx = some c' ∧ Rekeyed L c'.key c.key) →
      (∀ c, Ready p → q.rx = some c → ∃ c', p.rx = some c' ∧ Rekeyed L c'.key c.key) →
      Half (l ++ (opCall L me rnd p op).toList) q := by
    intro q h1 h2 h3 h4 h5
    have trans : ∀ {a b c : L.Key}, Rekeyed L a b → Rekeyed L b c → Rekeyed L a c := by
      intro a b c h h'
      induction h' with
      | refl => exact h
      | step _ ih => exact ih.step
    have base := half_more (x := (opCall L me rnd p op).toList) hp h2
    refine ⟨fun g hg => base.hs g (h1 ▸ hg), fun hr c hc => ?_, fun hr c hc => ?_⟩
    · obtain ⟨c', e1, e2⟩ := h4 c (h3 hr) hc
      obtain ⟨m, out, t, r, h6, h7⟩ := base.tx (h3 hr) c' e1
      exact ⟨m, out, t, r, h6, trans h7 e2⟩
    · obtain ⟨c', e1, e2⟩ := h5 c (h3 hr) hc
      obtain ⟨m, out, t, r, h6, h7⟩ := base.rx (h3 hr) c' e1
      exact ⟨m, out, t, r, h6, trans h7 e2⟩
  have keep : (∀ m out t r, .answered m out t r ∉ (opCall L me rnd p op).toList) →
      Half (l ++ (opCall L me rnd p op).toList) p := fun h2 =>
    mk p rfl h2 id (fun c _ hc => ⟨c, hc, .refl _⟩) (fun c _ hc => ⟨c, hc, .refl _⟩)
  cases op with
  | connect priv att => exact begin_half h hl
  | maybeConnect priv att =>
    simp only [exec, maybeConnect] at h
    split at h
    · rename_i hst; cases h; exact keep (by simp [opCall, hst])
    · rename_i hst; cases h; exact keep (by simp [opCall, hst])
    · rename_i hst
      have hc : opCall L me rnd p (.maybeConnect priv att) = beginCall L me priv rnd := by simp [opCall, hst]
      rw [hc] at hl ⊢
      exact begin_half h hl
  | accept priv att syn =>
    rcases accept_cases h with h | ⟨ev, m, h0, h1, h2, out, k1, k2, vals, hpc, hv, hn, hr1, hw, hs, hr, -⟩
    · exact half_disconnected h.1
    · rw [hr]
      have hc : opCall L me rnd p (.accept priv att syn) = some (.answered m out k1 k2) := by
        simp [opCall, answerCall, hpc, hn, hr1, hw, hs]
      rw [hc]
      exact ⟨fun _ e => (by cases e), fun _ c e => (by cases e; exact ⟨m, out, k1, k2, by simp, .refl _⟩),
        fun _ c e => (by cases e; exact ⟨m, out, k1, k2, by simp, .refl _⟩)⟩
  | recv msg =>
    simp only [exec] at h
    cases msg with
    | syn b => cases h
    | synack b =>
      unfold recv at h
      simp only at h
      split at h
      · cases h; exact half_drop _ p
      · obtain ⟨r', hf, h⟩ := Out.bind_eq_ok.mp h
        split at h
        · cases h; exact half_drop _ r'.peer
        · rename_i he
          cases h
          obtain ⟨ev, out, h0, h1, k1, k2, vals, hh, hpc, hv, hr1, hs, hr, -, -⟩ := finish_cases hf he
          exact absurd (by simp [opCall, hh, hpc, hr1]) (hm.finished h0 out)
    | data ct =>
      rcases recv_data_cases h with h | ⟨h0, c, n, pt, hx, hd, -, -⟩
      · exact half_disconnected h.1
      · exact absurd (by simp [opCall, h0, hx, hd]) (hm.opened c.key)
    | rst => cases h; exact half_drop _ p
    | unset => cases h; exact keep (by simp [opCall])
  | send msg =>
    have hno : ∀ m out t r, .answered m out t r ∉ (opCall L me rnd p (.send msg)).toList := by
      intro m out t r
      simp only [opCall]
      split <;> simp
    obtain ⟨-, h | ⟨h0, h1, -⟩ | ⟨h0, c, b, n, ct, -, ht, -, hr, -⟩⟩ := send_cases h
    · rw [h.1]; exact keep hno
    · exact half_disconnected h1
    · rw [hr]
      refine mk _ rfl hno (fun _ => state_connected.mp h0) (fun c' _ hc' => ?_) (fun c' _ hc' => ⟨c', hc', .refl _⟩)
      cases hc'
      exact ⟨c, ht, rekeyed_if (.refl _) _⟩
  | disconnect => cases h; exact half_drop _ p

/-- No operation: nothing is called. -/
theorem evCall_none {me : Id} {w : World L} {e : Ev L} (h : ∀ rnd, e ≠ .run me rnd) : evCall L me w e = none := by
  cases e with
  | run id rnd =>
    simp only [evCall]
    split
    · rename_i hid; exact absurd (by rw [hid]) (h rnd)
    · rfl
  | _ => rfl

/-- The invariant. -/
theorem alone {me : Id} {lim : Limits} : ∀ (evs : List (Ev L)) {w : World L} {es : List Eff},
    run L (start L lim) evs = .ok (w, es) → Honest (trace L me (start L lim) evs) →
    Mute (trace L me (start L lim) evs) ∧ (∀ p, w.peers.find me = some p → Half (trace L me (start L lim) evs) p) ∧
    ∀ m, .got me m ∈ es → m = .connected := by
  intro evs
  induction evs using List.reverseRecOn with
  | nil =>
    intro w es h _
    cases h
    exact ⟨⟨fun _ h => (by cases h), fun _ h => (by cases h), fun _ _ h => (by cases h)⟩, fun p hp => (by cases hp), fun m hm => (by cases hm)⟩
  | append_singleton evs e ih =>
    intro w es h hl
    obtain ⟨w1, e1, e2, h1, h2, rfl⟩ := run_snoc h
    rw [trace_snoc evs h1 h2] at hl ⊢
    obtain ⟨hm, hp, hg⟩ := ih h1 (honest_prefix hl)
    by_cases hr : ∃ rnd ts op p, e = .run me rnd ∧ w1.busy.find me = some (ts, op) ∧ w1.peers.find me = some p
    · obtain ⟨rnd, ts, op, p, rfl, hb, hpe⟩ := hr
      have hc : evCall L me w1 (.run me rnd) = opCall L me rnd p op := by simp [evCall, hb, hpe]
      rw [hc] at hl ⊢
      have hm' := op_mute (hp p hpe) hm hl
      refine ⟨hm', fun q hq => ?_, fun m hgot => ?_⟩
      · simp only [step, hb, hpe] at h2
        obtain ⟨r, hx, h2⟩ := Out.bind_eq_ok.mp h2
        cases h2
        rw [OMap.find_insert_self] at hq
        cases hq
        exact op_half (hp p hpe) hx hl hm'
      · rcases List.mem_append.mp hgot with hgot | hgot
        · exact hg m hgot
        · obtain ⟨p', q, ts', op', rnd', hp', hq, hrd, hnu, he, hb', h3⟩ := Props.Peers.C42_heard h2 hgot
          rw [hpe] at hp'; cases hp'
          rw [hb] at hb'; cases hb'
          rcases h3 with ⟨h4, c, ct, n, pt, rfl, hx, hd, -⟩ | h3
          · exact absurd (by simp [opCall, state_connected.mpr h4, hx, hd]) (hm'.opened c.key)
          · exact h3.1
    · have hc : evCall L me w1 e = none := by
        cases e with
        | run id rnd =>
          simp only [evCall]
          split
          · rename_i hid
            subst hid
            split
            · rename_i hb hpe; exact absurd ⟨rnd, _, _, _, rfl, hb, hpe⟩ hr
            · rfl
          · rfl
        | _ => rfl
      rw [hc]
      simp only [Option.toList, List.append_nil]
      refine ⟨hm, fun q hq => ?_, fun m hgot => ?_⟩
      · cases step_from h2 hq with
        | same hq => exact hp q hq
        | new hn hq => subst hq; exact half_disconnected rfl
        | dropped hn hq => subst hq; exact half_drop _ _
        | ran he hb hpe hx hq => exact absurd ⟨_, _, _, _, he, hb, hpe⟩ hr
      · rcases List.mem_append.mp hgot with hgot | hgot
        · exact hg m hgot
        · obtain ⟨p', q, ts', op', rnd', hp', hq, hrd, hnu, he, hb', h3⟩ := Props.Peers.C42_heard h2 hgot
          exact absurd ⟨_, _, _, _, he, hb', hp'⟩ hr

/-- **C93**: whatever an enclave is asked to do and whatever it is handed, in whatever order its threads run, it never opens a message
that came from its own key, it never completes a handshake it began with its own key, and all that the rest of the enclave hears from
its own key is the notice of a connection. -/
theorem C93_alone {me : Id} {lim : Limits} {evs : List (Ev L)} {w : World L} {es : List Eff}
    (h : run L (start L lim) evs = .ok (w, es)) (hl : Honest (trace L me (start L lim) evs)) :
    (∀ k, .opened k ∉ trace L me (start L lim) evs) ∧ (∀ g out, .finished g out ∉ trace L me (start L lim) evs) ∧
    ∀ m, .got me m ∈ es → m = .connected := by
  obtain ⟨h1, -, h3⟩ := alone evs h hl
  exact ⟨h1.opened, h1.finished, h3⟩

/-! ## Concrete cases -/

/-- Libraries for examples: a handshake is the two random values, an answer repeats the first, keys are the two values, the direction
and the number of changes; a cipher adds the direction. -/
def mirror : Lib where
  Hs := Role × Nat × Bytes × Bytes
  Key := Bool × Nat × Bytes × Bytes
  Priv := Unit
  attest _ ev := match ev with
    | v :: key => some (key, OMap.empty.insert [1] [v])
    | [] => none
  new role _ _ := .ok (role, 0, [], [])
  action h := match h.1, h.2.1 with
    | .initiator, 0 => .write
    | .initiator, 1 => .read
    | .responder, 0 => .read
    | .responder, 1 => .write
    | _, 2 => .split
    | _, _ => .other
  write h rnd := match h with
    | (.initiator, _, _, _) => some ((.initiator, 1, rnd, []), rnd)
    | (.responder, _, a, _) => some ((.responder, 2, a, rnd), a ++ rnd)
  read h m := match h with
    | (.initiator, _, a, _) => if a = m.take a.length then some (.initiator, 2, a, m.drop a.length) else none
    | (.responder, _, _, _) => some (.responder, 1, m, [])
  split h := match h with
    | (.initiator, _, x) => some ((true, 0, x), (false, 0, x))
    | (.responder, _, x) => some ((false, 0, x), (true, 0, x))
  aead k :=
    { mac := 1
      enc := fun _ _ p => p ++ [if k.1 then 1 else 0]
      dec := fun _ _ c => if c.getLast? = some (if k.1 then 1 else 0) then some c.dropLast else none }
  rekey k := (k.1, k.2.1 + 1, k.2.2)
  parseConn b := if 33 ≤ b.length then some (b.take 33, b.drop 33) else none
  serConn att hs := some (att ++ hs)
  parseMsg b := some (.other b)
  serMsg m := match m with
    | .other b => some b
    | _ => none

def self : Id := List.replicate 32 7

/-- The host asks the enclave to connect to its own key, and hands it what it sends: the request, and later data. -/
def echoActs : List (Ev mirror) :=
  [.init () (1 :: self), .connectToPeer self, .lock 0, .run self [4, 5], .peerMessage self (.syn (1 :: self ++ [4, 5])), .lock 0,
   .run self [6], .sendToPeer self (.other [9]), .lock 0, .run self [], .peerMessage self (.data [9, 0]), .lock 0, .run self []]

/-- What goes out and comes in. -/
def marks (o : Out (World mirror × List Eff)) : List (Bool × Nat) :=
  match o with
  | .ok (_, es) => es.filterMap fun e => match e with
    | .sent _ (.syn _) => some (true, 1)
    | .sent _ (.synack _) => some (true, 2)
    | .sent _ (.data _) => some (true, 3)
    | .sent _ .rst => some (true, 4)
    | .got _ .connected => some (false, 0)
    | .got _ _ => some (false, 1)
    | _ => none
  | _ => []

/-- The request comes back: the enclave answers and takes itself for connected. Its data comes back: it does not open, and the
connection is dropped. -/
theorem C93_connects_to_itself : marks (run mirror (start mirror .empty) echoActs) =
    [(true, 1), (true, 2), (false, 0), (true, 3), (true, 4)] := by decide +kernel

/-- Its answer comes back instead: there is no handshake any more, and the connection is dropped. -/
example : marks (run mirror (start mirror .empty) (echoActs.take 7 ++
    [.peerMessage self (.synack (1 :: self ++ [4, 5, 6])), .lock 0, .run self []])) =
    [(true, 1), (true, 2), (false, 0), (true, 4)] := by decide +kernel

theorem echo_trace : trace mirror self (start mirror .empty) echoActs =
    [.wrote (.initiator, 1, [4, 5], []) [4, 5],
     .answered [4, 5] [4, 5, 6] (false, 0, [4, 5], [6]) (true, 0, [4, 5], [6]), .sealed (false, 0, [4, 5], [6])] := by rfl

theorem mirror_side {k k' : mirror.Key} (h : Rekeyed mirror k k') : (show Bool × Nat × Bytes × Bytes from k').1 =
    (show Bool × Nat × Bytes × Bytes from k).1 := by
  induction h with
  | refl => rfl
  | step _ ih => exact ih

/-- The hypotheses of `C93_alone` in that case. -/
theorem echo_honest : Honest (trace mirror self (start mirror .empty) echoActs) := by
  rw [echo_trace]
  refine ⟨fun b a h m e out t r hm => ?_, fun b a h out e => ?_, fun b a k e => ?_, fun m out t r m' out' t' r' h1 h2 k hk hk' => ?_⟩
  · rcases b with _ | ⟨x, _ | ⟨y, _ | ⟨z, b⟩⟩⟩ <;> simp at e hm
  · have : Call.finished h out ∈ b ++ .finished h out :: a := by simp
    rw [← e] at this; simp at this
  · have : Call.opened k ∈ b ++ .opened k :: a := by simp
    rw [← e] at this; simp at this
  · simp only [List.mem_cons, Call.answered.injEq, reduceCtorEq, List.not_mem_nil, or_false, false_or] at h1 h2
    obtain ⟨-, -, rfl, -⟩ := h1
    obtain ⟨-, -, -, rfl⟩ := h2
    have := (mirror_side hk).symm.trans (mirror_side hk')
    cases this

example : ∃ w es, run mirror (start mirror .empty) echoActs = .ok (w, es) ∧ Honest (trace mirror self (start mirror .empty) echoActs) ∧
    .got self .connected ∈ es := by
  refine ⟨_, _, rfl, echo_honest, ?_⟩
  simp [List.mem_append, effects]

end Svr.Props.Alone
